import Verif.InterpTraceSpec
import Verif.InterpProps

/-!
# Executions call modules one after the other: C136
-/

namespace Rodkina.Interp

variable {W σ : Type} {M : Module W σ → Prop}

theorem Chain.trans {s s1 s2 : σ} (h : Chain M s s1) (h' : Chain M s1 s2) : Chain M s s2 := by
  induction h with
  | none => exact h'
  | call m ps v s s1 s2 h1 h2 _ ih => exact .call m ps v s s1 _ h1 h2 (ih h')

/-- An execution that does nothing else. -/
def AlwaysRuns {α : Type} (M : Module W σ → Prop) (x : EM σ α) : Prop := ∀ s, Runs M s (x s)

theorem AlwaysRuns.pure {α : Type} (a : α) : AlwaysRuns M (pure a : EM σ α) := fun s => Chain.none s

theorem AlwaysRuns.bind {α β : Type} {x : EM σ α} {f : α → EM σ β} (hx : AlwaysRuns M x) (hf : ∀ a, AlwaysRuns M (f a)) :
    AlwaysRuns M (x >>= f) := by
  intro s
  show Runs M s (EM.andThen x f s)
  unfold EM.andThen
  have h1 := hx s
  rcases hr : x s with ⟨o, s1⟩
  rw [hr] at h1
  cases o with
  | ok a =>
    have h2 := hf a s1
    have h1 : Chain M s s1 := h1
    dsimp only
    rcases hr2 : f a s1 with ⟨o2, s2⟩
    rw [hr2] at h2
    cases o2 with
    | ok b => exact h1.trans h2
    | panic =>
      obtain ⟨m, ps, s3, a1, a2, a3⟩ := h2
      exact ⟨m, ps, s3, a1, h1.trans a2, a3⟩
    | fail r =>
      cases r with
      | module =>
        obtain ⟨m, ps, s3, a1, a2, a3⟩ := h2
        exact ⟨m, ps, s3, a1, h1.trans a2, a3⟩
      | input => exact h1.trans h2
      | output => exact h1.trans h2
  | panic => exact h1
  | fail r => cases r <;> exact h1

theorem alwaysRuns_call {m : Module W σ} (hm : M m) (ps : Params W) : AlwaysRuns M (callModule m ps) := by
  intro s
  unfold callModule
  rcases hr : m.fn ps s with ⟨r, s'⟩
  cases r with
  | ok v => exact .call m ps v s s' s' hm hr (.none s')
  | err => exact ⟨m, ps, s, hm, .none s, hr⟩
  | panic => exact ⟨m, ps, s, hm, .none s, hr⟩

theorem alwaysRuns_collect (vals : List (Nat × Val W)) : ∀ os : List Nat, AlwaysRuns M (collect vals os : EM σ (List (Val W)))
  | [] => AlwaysRuns.pure _
  | o :: os => by
    rw [collect]
    cases vals.lookup o with
    | none => exact fun s => Chain.none s
    | some v => exact AlwaysRuns.bind (alwaysRuns_collect vals os) fun _ => AlwaysRuns.pure _

mutual
/-- The modules of a program satisfy `M`, at any depth. -/
inductive ProgramOf (M : Module W σ → Prop) : Program W σ → Prop
  | mk (is : List (PInstr W σ)) (os : List Nat) : (∀ i ∈ is, InstrOf M i) → ProgramOf M (.mk is os)

/-- The same for instructions. -/
inductive InstrOf (M : Module W σ → Prop) : PInstr W σ → Prop
  | value (v : PValue W σ) : ValueOf M v → InstrOf M (.value v)
  | execution (a : App W σ) : AppOf M a → InstrOf M (.execution a)

/-- The same for values. -/
inductive ValueOf (M : Module W σ → Prop) : PValue W σ → Prop
  | input (i : Nat) : ValueOf M (.input i)
  | constant (b : Bytes) : ValueOf M (.constant b)
  | execution (a : App W σ) : AppOf M a → ValueOf M (.execution a)
  | program (p : Program W σ) : ProgramOf M p → ValueOf M (.program p)

/-- The same for applications. -/
inductive AppOf (M : Module W σ → Prop) : App W σ → Prop
  | mk (i : Nat) (m : Module W σ) (l : List (Attachment W σ)) : M m → (∀ a ∈ l, AttachmentOf M a) → AppOf M (.mk i m l)

/-- The same for attachments. -/
inductive AttachmentOf (M : Module W σ → Prop) : Attachment W σ → Prop
  | mk (v : PValue W σ) (t : Nat) : ValueOf M v → AttachmentOf M (.mk v t)
end

mutual
theorem program_runs (input : List (Val W)) : ∀ p : Program W σ, ProgramOf M p → AlwaysRuns M (execProgram input p)
  | .mk is os, .mk _ _ h => by
    rw [execProgram]
    exact AlwaysRuns.bind (instrs_runs input is h 0 []) fun vals => alwaysRuns_collect vals os

theorem instrs_runs (input : List (Val W)) : ∀ is : List (PInstr W σ), (∀ i ∈ is, InstrOf M i) → ∀ idx vals,
    AlwaysRuns M (execInstrs input is idx vals)
  | [], _, _, _ => by rw [execInstrs]; exact AlwaysRuns.pure _
  | .value v :: is, h, idx, vals => by
    rw [execInstrs]
    have hv : ValueOf M v := by
      have := h _ List.mem_cons_self
      cases this; assumption
    have ih2 := instrs_runs input is (fun i hi => h i (List.mem_cons_of_mem _ hi)) (idx + 1)
    exact AlwaysRuns.bind (value_runs input v hv) fun x => ih2 ((idx, x) :: vals)
  | .execution a :: is, h, idx, vals => by
    rw [execInstrs]
    have hv : AppOf M a := by
      have := h _ List.mem_cons_self
      cases this; assumption
    have ih2 := instrs_runs input is (fun i hi => h i (List.mem_cons_of_mem _ hi)) (idx + 1) vals
    exact AlwaysRuns.bind (app_runs input a hv) fun _ => ih2

theorem value_runs (input : List (Val W)) : ∀ v : PValue W σ, ValueOf M v → AlwaysRuns M (execValue input v)
  | .input i, _ => by
    rw [execValue]
    cases input[i]? with
    | some x => exact AlwaysRuns.pure _
    | none => exact fun s => Chain.none s
  | .constant b, _ => by rw [execValue]; exact AlwaysRuns.pure _
  | .program p, .program _ hp => by
    rw [execValue]
    exact AlwaysRuns.bind (program_runs input p hp) fun _ => AlwaysRuns.pure _
  | .execution a, .execution _ ha => by
    rw [execValue]
    exact app_runs input a ha

theorem app_runs (input : List (Val W)) : ∀ a : App W σ, AppOf M a → AlwaysRuns M (execApp input a)
  | .mk i m l, .mk _ _ _ hm hl => by
    rw [execApp]
    exact AlwaysRuns.bind (attachments_runs input l hl (fun _ => none)) fun ps => alwaysRuns_call hm ps

theorem attachments_runs (input : List (Val W)) : ∀ l : List (Attachment W σ), (∀ a ∈ l, AttachmentOf M a) → ∀ ps,
    AlwaysRuns M (execAttachments input l ps)
  | [], _, _ => by rw [execAttachments]; exact AlwaysRuns.pure _
  | .mk v t :: l, h, ps => by
    rw [execAttachments]
    have hv : ValueOf M v := by
      have := h _ List.mem_cons_self
      cases this; assumption
    have ih2 := fun x => attachments_runs input l (fun i hi => h i (List.mem_cons_of_mem _ hi)) (ps.set t x)
    exact AlwaysRuns.bind (value_runs input v hv) fun x => ih2 x
end

/-! ### Compiled programs -/

/-- Everything that the compiler holds has modules that satisfy `M`. -/
structure StateOf (M : Module W σ → Prop) (cs : CState W σ) : Prop where
  modules : ∀ e ∈ cs.modules, M e.2
  applications : ∀ e ∈ cs.applications, AppOf M e.2
  values : ∀ e ∈ cs.values, ValueOf M e.2
  instructions : ∀ i ∈ cs.instructions, InstrOf M i

theorem upd_all {β : Type} {P : β → Prop} {l : List (String × β)} {k : String} {v : β} (h : ∀ e ∈ l, P e.2) (hv : P v) :
    ∀ e ∈ upd l k v, P e.2 := by
  intro e he
  rcases List.mem_cons.mp he with rfl | he
  · exact hv
  · exact h e (List.mem_filter.mp he).1

theorem lookup_all {β : Type} {P : β → Prop} {l : List (String × β)} {k : String} {v : β} (h : ∀ e ∈ l, P e.2)
    (hl : l.lookup k = some v) : P v := by
  induction l with
  | nil => cases hl
  | cons e l ih =>
    rw [List.lookup_cons] at hl
    cases hk : k == e.1 with
    | true =>
      rw [hk] at hl
      cases hl
      exact h e List.mem_cons_self
    | false =>
      rw [hk] at hl
      exact ih (fun e' he => h e' (List.mem_cons_of_mem _ he)) hl

theorem append_all {α : Type} {P : α → Prop} {l : List α} {x : α} (h : ∀ e ∈ l, P e) (hx : P x) : ∀ e ∈ l ++ [x], P e := by
  intro e he
  rcases List.mem_append.mp he with he | he
  · exact h e he
  · rw [List.mem_singleton.mp he]
    exact hx

theorem fetchModule_mem {all : List (Module W σ)} {i : Nat} {m : Module W σ} (h : fetchModule all i = some m) : m ∈ all :=
  List.mem_reverse.mp (List.mem_of_find?_eq_some h)

theorem stateOf_empty : StateOf M ({} : CState W σ) :=
  ⟨fun _ h => (nomatch h), fun _ h => (nomatch h), fun _ h => (nomatch h), fun _ h => (nomatch h)⟩

theorem program_of {cs : CState W σ} (h : StateOf M cs) {p : Program W σ} (hp : program cs = .ok p) : ProgramOf M p := by
  unfold program at hp
  split at hp
  · cases hp
  · cases hp
    exact .mk _ _ h.instructions

mutual
theorem value_of (all : List (Module W σ)) : ∀ (v : SValue) (cs : CState W σ), StateOf (· ∈ all) cs → ∀ v', compileValue all v cs = .ok v' →
    ValueOf (· ∈ all) v'
  | .var name, cs, h, v', hv => by
    rw [compileValue] at hv
    split at hv
    · cases hv
    · split at hv
      · cases hv
        exact .input _
      · cases hv
  | .constant b, cs, h, v', hv => by
    rw [compileValue] at hv
    cases hv
    exact .constant _
  | .instructions list, cs, h, v', hv => by
    rw [compileValue] at hv
    split at hv
    · cases hv
    · cases hv
    · next cs' hc =>
      split at hv
      · cases hv
      · cases hv
      · next p hp =>
        cases hv
        exact .program _ (program_of (list_of all list {} stateOf_empty cs' hc) hp)
  | .execution name, cs, h, v', hv => by
    rw [compileValue] at hv
    split at hv
    · cases hv
    · next a ha =>
      cases hv
      exact .execution _ (lookup_all h.applications ha)

theorem instr_of (all : List (Module W σ)) : ∀ (i : Instr) (cs : CState W σ), StateOf (· ∈ all) cs → ∀ cs', compileInstr all i cs = .ok cs' →
    StateOf (· ∈ all) cs'
  | .module index name, cs, h, cs', hc => by
    rw [compileInstr] at hc
    unfold compileModule at hc
    split at hc
    · cases hc
    · next m hm =>
      split at hc
      · cases hc
      · cases hc
        exact ⟨upd_all h.modules (fetchModule_mem hm), h.applications, h.values, h.instructions⟩
  | .application module name, cs, h, cs', hc => by
    rw [compileInstr] at hc
    unfold compileApplication at hc
    split at hc
    · cases hc
    · split at hc
      · cases hc
      · next m hm =>
        cases hc
        exact ⟨h.modules, upd_all h.applications (.mk _ _ _ (lookup_all h.modules hm) (fun _ h => by cases h)), h.values, h.instructions⟩
  | .parameter name isInput, cs, h, cs', hc => by
    rw [compileInstr] at hc
    unfold compileParameter at hc
    split at hc
    · cases hc
    · cases hc
      exact ⟨h.modules, h.applications, h.values, h.instructions⟩
  | .assignment name value, cs, h, cs', hc => by
    rw [compileInstr] at hc
    split at hc
    · cases hc
    · cases hc
    · next v hv =>
      cases hc
      have hv := value_of all value cs h v hv
      exact ⟨h.modules, h.applications, upd_all h.values hv, append_all h.instructions (.value _ hv)⟩
  | .attachment current target application, cs, h, cs', hc => by
    rw [compileInstr] at hc
    unfold compileAttachment at hc
    split at hc
    · cases hc
    · cases hc
    · next v hv =>
      have hv : ValueOf (· ∈ all) v := by
        unfold compileAttachmentValue at hv
        split at hv
        · next v1 h1 =>
          cases hv
          exact lookup_all h.values h1
        · split at hv
          · cases hv
          · split at hv
            · cases hv
              exact .input _
            · cases hv
      split at hc
      · cases hc
      · next index m atts ha =>
        cases hc
        have ha := lookup_all h.applications ha
        cases ha with
        | mk _ _ _ h1 h2 => exact ⟨h.modules, upd_all h.applications (.mk _ _ _ h1 (append_all h2 (.mk _ _ hv))), h.values, h.instructions⟩
  | .execution application, cs, h, cs', hc => by
    rw [compileInstr] at hc
    unfold compileExecution at hc
    split at hc
    · cases hc
    · next a ha =>
      cases hc
      exact ⟨h.modules, h.applications, h.values, append_all h.instructions (.execution _ (lookup_all h.applications ha))⟩

theorem list_of (all : List (Module W σ)) : ∀ (is : List Instr) (cs : CState W σ), StateOf (· ∈ all) cs → ∀ cs', compileList all is cs = .ok cs' →
    StateOf (· ∈ all) cs'
  | [], cs, h, cs', hc => by
    rw [compileList] at hc
    cases hc
    exact h
  | i :: is, cs, h, cs', hc => by
    rw [compileList] at hc
    split at hc
    · cases hc
    · cases hc
    · next cs1 h1 => exact list_of all is cs1 (instr_of all i cs h cs1 h1) cs' hc
end

theorem compile_of {all : List (Module W σ)} {src : List Instr} {p : Program W σ} (h : compile all src = .ok p) : ProgramOf (· ∈ all) p := by
  unfold compile at h
  split at h
  · cases h
  · cases h
  · next cs hc => exact program_of (list_of all src {} stateOf_empty cs hc) h

end Rodkina.Interp

namespace Rodkina.Props

open Rodkina.Interp

variable {W σ : Type}

/-- **C136.** Executing a compiled program calls modules that were given to the compiler, one after the other, each in the state
that the one before left, and does nothing else to the state.  When a module fails or panics, it is the last one that is called,
and what it did stays done. -/
theorem C136_one_after_the_other (all : List (Module W σ)) (src : List Instr) (p : Program W σ) (h : compile all src = .ok p)
    (input : List (Val W)) (s : σ) : Runs (· ∈ all) s (execute input p s) :=
  program_runs input p (compile_of h) s

/-- A module that adds one to the state and fails when it was 5. -/
def sixthFails : Module Unit Nat := ⟨1, fun _ s => (if s = 5 then .err else .ok (.bytes []), s + 1)⟩

/-- Three executions. -/
def threeExecutions : List Instr :=
  [.module 1 "m", .application "m" "f", .execution "f", .execution "f", .execution "f"]

theorem threeExecutions_compile : compile [sixthFails] threeExecutions =
    .ok (.mk [.execution (.mk 0 sixthFails []), .execution (.mk 0 sixthFails []), .execution (.mk 0 sixthFails [])] []) := by
  rfl

/-- Starting at 4, the second of three calls fails: the state is 6, the third call is not made. -/
example : ∃ p, compile [sixthFails] threeExecutions = .ok p ∧ execute [] p 4 = (.fail .module, 6) ∧
    ∃ m ps s1, m ∈ [sixthFails] ∧ Chain (· ∈ [sixthFails]) 4 s1 ∧ m.fn ps s1 = (.err, 6) :=
  ⟨_, threeExecutions_compile, rfl, C136_one_after_the_other [sixthFails] threeExecutions _ threeExecutions_compile [] 4⟩

end Rodkina.Props
