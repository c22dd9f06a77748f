import Verif.InterpBuildersLemmas
import Verif.InterpLemmas
/-! What programs that can be built do, and what compiled programs are. -/

namespace Rodkina.Interp
namespace BuildSpec

open Build
open Rodkina.Ast.Build (Builder listBuilder)

variable {W σ : Type}

/-! ### Compiled programs -/

/-- Outputs are valid in an application. -/
abbrev AppOK (a : App W σ) : Prop := AppAll (fun _ => True) (fun _ => True) ValidOutputs a

/-- Outputs are valid in a value. -/
abbrev ValueOK (v : PValue W σ) : Prop := ValueAll (fun _ => True) (fun _ => True) ValidOutputs v

/-- Outputs are valid in an instruction. -/
abbrev InstrOK (i : PInstr W σ) : Prop := InstrAll (fun _ => True) (fun _ => True) ValidOutputs i

/-- What holds of all that `Compile` has made so far. -/
structure Made (cs : CState W σ) : Prop where
  apps : ∀ n a, cs.applications.lookup n = some a → AppWF a ∧ AppOK a
  values : ∀ n v, cs.values.lookup n = some v → PValueWF v ∧ ValueOK v
  instrs : ∀ i ∈ cs.instructions, PInstrWF i ∧ InstrOK i
  outputs : ∀ o ∈ cs.outputs, ∃ v, cs.instructions[o]? = some (.value v)

theorem lookup_upd_of {β : Type} {m : List (String × β)} {k n : String} {v x : β} (h : (upd m k v).lookup n = some x) :
    x = v ∨ m.lookup n = some x := by
  unfold upd at h
  rw [List.lookup_cons] at h
  cases hn : n == k with
  | true => rw [hn] at h; cases h; exact .inl rfl
  | false =>
    rw [hn] at h
    right
    have hne : n ≠ k := by simpa using hn
    clear hn
    revert h
    induction m with
    | nil => simp
    | cons e m ih =>
      obtain ⟨a, b⟩ := e
      simp only [List.filter_cons]
      by_cases hk : a = k
      · subst hk
        have : (n == a) = false := by simpa using hne
        simp only [bne_self_eq_false, Bool.false_eq_true, if_false, List.lookup_cons, this]
        exact ih
      · have hk' : (a != k) = true := by simpa using hk
        simp only [hk', if_true, List.lookup_cons]
        cases hna : n == a with
        | true => exact id
        | false => exact ih

theorem Made.init : Made ({} : CState W σ) := ⟨by simp, by simp, by simp, by simp⟩

theorem made_program {cs : CState W σ} (h : Made cs) {p : Program W σ} (hp : program cs = .ok p) :
    ProgramWF p ∧ OutputsOf p := by
  unfold program at hp
  split at hp
  · cases hp
  · rename_i hne
    cases hp
    exact ⟨.mk _ _ (by simpa using hne) (fun i hi => (h.instrs i hi).1), .mk _ _ h.outputs (fun i hi => (h.instrs i hi).2)⟩

theorem attachmentValue_made {cs : CState W σ} (h : Made cs) {c : String} {v : PValue W σ}
    (hv : compileAttachmentValue c cs = .ok v) : PValueWF v ∧ ValueOK v := by
  unfold compileAttachmentValue at hv
  cases hl : cs.values.lookup c with
  | some x => rw [hl] at hv; cases hv; exact h.values _ _ hl
  | none =>
    rw [hl] at hv
    cases hp : cs.parameters.lookup c with
    | none => rw [hp] at hv; cases hv
    | some x =>
      rw [hp] at hv
      simp only at hv
      split at hv
      · cases hv; exact ⟨.input _, .input _ trivial⟩
      · cases hv

theorem append_made {cs : CState W σ} (h : Made cs) {i : PInstr W σ} (hi : PInstrWF i ∧ InstrOK i) :
    (∀ j ∈ cs.instructions ++ [i], PInstrWF j ∧ InstrOK j) ∧
      ∀ o ∈ cs.outputs, ∃ v, (cs.instructions ++ [i])[o]? = some (.value v) := by
  constructor
  · intro j hj
    rcases List.mem_append.mp hj with hj | hj
    · exact h.instrs j hj
    · rw [List.mem_singleton] at hj; subst hj; exact hi
  · intro o ho
    obtain ⟨v, hv⟩ := h.outputs o ho
    have hlt : o < cs.instructions.length := by
      rcases Nat.lt_or_ge o cs.instructions.length with h' | h'
      · exact h'
      · rw [List.getElem?_eq_none h'] at hv; cases hv
    exact ⟨v, by rw [List.getElem?_append_left hlt]; exact hv⟩

theorem assignment_made {cs : CState W σ} (h : Made cs) {n : String} {v : PValue W σ} (hv : PValueWF v ∧ ValueOK v) :
    Made (compileAssignment n v cs) := by
  obtain ⟨hi, ho⟩ := append_made h (i := .value v) ⟨.value _ hv.1, .value _ hv.2⟩
  refine ⟨h.apps, ?_, hi, ?_⟩
  · intro k x hx
    rcases lookup_upd_of hx with rfl | hx
    · exact hv
    · exact h.values _ _ hx
  · intro o hm
    simp only [compileAssignment] at hm
    have key : o ∈ cs.outputs ++ [cs.instructions.length] := by
      cases hl : cs.parameters.lookup n with
      | none => rw [hl] at hm; exact List.mem_append_left _ hm
      | some p =>
        rw [hl] at hm
        simp only at hm
        split at hm
        · exact List.mem_append_left _ hm
        · exact hm
    rcases List.mem_append.mp key with hm | hm
    · exact ho o hm
    · rw [List.mem_singleton] at hm
      subst hm
      exact ⟨v, by simp [compileAssignment]⟩

mutual
theorem value_made (all : List (Module W σ)) : ∀ (x : SValue) (cs : CState W σ), Made cs → ∀ v, compileValue all x cs = .ok v →
    PValueWF v ∧ ValueOK v
  | .var n, cs, h, v, hv => by
    rw [compileValue] at hv
    cases hl : cs.parameters.lookup n with
    | none => rw [hl] at hv; cases hv
    | some p =>
      rw [hl] at hv
      simp only at hv
      split at hv
      · cases hv; exact ⟨.input _, .input _ trivial⟩
      · cases hv
  | .constant b, cs, h, v, hv => by
    rw [compileValue] at hv
    cases hv
    exact ⟨.constant _, .constant _⟩
  | .instructions l, cs, h, v, hv => by
    rw [compileValue] at hv
    have ih := list_made all l {} Made.init
    cases hl : compileList all l ({} : CState W σ) with
    | err => rw [hl] at hv; cases hv
    | panic => rw [hl] at hv; cases hv
    | ok cs' =>
      rw [hl] at hv
      have hm := ih cs' hl
      cases hp : program cs' with
      | err => simp only [hp] at hv; cases hv
      | panic => simp only [hp] at hv; cases hv
      | ok p =>
        simp only [hp] at hv
        cases hv
        have := made_program hm hp
        exact ⟨.program _ this.1, .program _ this.2⟩
  | .execution n, cs, h, v, hv => by
    rw [compileValue] at hv
    cases hl : cs.applications.lookup n with
    | none => rw [hl] at hv; cases hv
    | some a =>
      rw [hl] at hv
      cases hv
      have := h.apps _ _ hl
      exact ⟨.execution _ this.1, .execution _ this.2⟩

theorem instr_made (all : List (Module W σ)) : ∀ (i : Instr) (cs : CState W σ), Made cs → ∀ cs', compileInstr all i cs = .ok cs' →
    Made cs'
  | .module index name, cs, h, cs', hc => by
    rw [compileInstr, compileModule] at hc
    cases hf : fetchModule all index with
    | none => rw [hf] at hc; cases hc
    | some m =>
      rw [hf] at hc
      cases hl : cs.modules.lookup name with
      | some _ => simp only [hl] at hc; cases hc
      | none => simp only [hl] at hc; cases hc; exact ⟨h.apps, h.values, h.instrs, h.outputs⟩
  | .application module name, cs, h, cs', hc => by
    rw [compileInstr, compileApplication] at hc
    cases hf : cs.applications.lookup name with
    | some _ => rw [hf] at hc; cases hc
    | none =>
      rw [hf] at hc
      cases hl : cs.modules.lookup module with
      | none => simp only [hl] at hc; cases hc
      | some m =>
        simp only [hl] at hc
        cases hc
        refine ⟨?_, h.values, h.instrs, h.outputs⟩
        intro k x hx
        rcases lookup_upd_of hx with rfl | hx
        · exact ⟨.mk _ _ _ (by simp), .mk _ _ _ trivial (by simp)⟩
        · exact h.apps _ _ hx
  | .parameter name b, cs, h, cs', hc => by
    rw [compileInstr, compileParameter] at hc
    cases hf : cs.parameters.lookup name with
    | some _ => rw [hf] at hc; cases hc
    | none => rw [hf] at hc; cases hc; exact ⟨h.apps, h.values, h.instrs, h.outputs⟩
  | .assignment n x, cs, h, cs', hc => by
    rw [compileInstr] at hc
    have ih := value_made all x cs h
    cases hv : compileValue all x cs with
    | err => rw [hv] at hc; cases hc
    | panic => rw [hv] at hc; cases hc
    | ok v =>
      rw [hv] at hc
      cases hc
      exact assignment_made h (ih v hv)
  | .attachment c t a, cs, h, cs', hc => by
    rw [compileInstr, compileAttachment] at hc
    cases hv : compileAttachmentValue c cs with
    | err => rw [hv] at hc; cases hc
    | panic => rw [hv] at hc; cases hc
    | ok v =>
      rw [hv] at hc
      have hvm := attachmentValue_made h hv
      cases hl : cs.applications.lookup a with
      | none => simp only [hl] at hc; cases hc
      | some x =>
        obtain ⟨i, m, atts⟩ := x
        simp only [hl] at hc
        cases hc
        refine ⟨?_, h.values, h.instrs, h.outputs⟩
        intro k x hx
        rcases lookup_upd_of hx with rfl | hx
        · obtain ⟨⟨_, _, _, h1⟩, ⟨_, _, _, _, h2⟩⟩ := h.apps _ _ hl
          refine ⟨.mk _ _ _ ?_, .mk _ _ _ trivial ?_⟩
          · intro y hy
            rcases List.mem_append.mp hy with hy | hy
            · exact h1 _ hy
            · rw [List.mem_singleton] at hy; subst hy; exact .mk _ _ hvm.1
          · intro y hy
            rcases List.mem_append.mp hy with hy | hy
            · exact h2 _ hy
            · rw [List.mem_singleton] at hy; subst hy; exact .mk _ _ hvm.2
        · exact h.apps _ _ hx
  | .execution a, cs, h, cs', hc => by
    rw [compileInstr, compileExecution] at hc
    cases hl : cs.applications.lookup a with
    | none => rw [hl] at hc; cases hc
    | some x =>
      rw [hl] at hc
      cases hc
      have hx := h.apps _ _ hl
      obtain ⟨hi, ho⟩ := append_made h (i := .execution x) ⟨.execution _ hx.1, .execution _ hx.2⟩
      exact ⟨h.apps, h.values, hi, ho⟩

theorem list_made (all : List (Module W σ)) : ∀ (l : List Instr) (cs : CState W σ), Made cs → ∀ cs', compileList all l cs = .ok cs' →
    Made cs'
  | [], cs, h, cs', hc => by
    rw [compileList] at hc
    cases hc
    exact h
  | i :: l, cs, h, cs', hc => by
    rw [compileList] at hc
    have ih := instr_made all i cs h
    cases hi : compileInstr all i cs with
    | err => rw [hi] at hc; cases hc
    | panic => rw [hi] at hc; cases hc
    | ok cs1 =>
      rw [hi] at hc
      exact list_made all l cs1 (ih cs1 hi) cs' hc
end

theorem compile_made {all : List (Module W σ)} {src : List Instr} {p : Program W σ} (h : compile all src = .ok p) :
    ProgramWF p ∧ OutputsOf p := by
  unfold compile at h
  cases hl : compileList all src ({} : CState W σ) with
  | err => rw [hl] at h; cases h
  | panic => rw [hl] at h; cases h
  | ok cs => rw [hl] at h; exact made_program (list_made all src _ Made.init cs hl) h

/-! ### Executions -/

/-- How an execution does not end well: a reason to fail, or (`none`) a panic. -/
def endsIn {α : Type} (e : Option Reason) (o : Outcome α) : Prop :=
  match o, e with
  | .fail r, some r' => r = r'
  | .panic, none => True
  | _, _ => False

/-- An execution that never ends in one way. -/
def Never {α : Type} (e : Option Reason) (m : EM σ α) : Prop := ∀ s, ¬ endsIn e (m s).1

theorem Never.pure {α : Type} {e : Option Reason} (a : α) : Never e (pure a : EM σ α) := fun _ h => h

theorem Never.bind {α β : Type} {e : Option Reason} {m : EM σ α} {f : α → EM σ β} (hm : Never e m)
    (hf : ∀ a s s', m s = (.ok a, s') → ¬ endsIn e (f a s').1) : Never e (m >>= f) := by
  intro s
  have h := hm s
  show ¬ endsIn e (EM.andThen m f s).1
  unfold EM.andThen
  cases hms : m s with
  | mk o s' =>
    rw [hms] at h
    cases o with
    | ok a => exact hf a s s' hms
    | fail r => cases e <;> exact h
    | panic => cases e <;> exact h

/-- Instructions that are values have a value afterwards, the others do not. -/
theorem execInstrs_lookup (input : List (Val W)) : ∀ (is : List (PInstr W σ)) (idx : Nat) (vals : List (Nat × Val W)) (s s' : σ)
    (vals' : List (Nat × Val W)), execInstrs input is idx vals s = (.ok vals', s') →
    ∀ o, (vals'.lookup o).isSome ↔ (vals.lookup o).isSome ∨ ∃ k v, o = idx + k ∧ is[k]? = some (.value v) := by
  intro is
  induction is with
  | nil =>
    intro idx vals s s' vals' h o
    rw [execInstrs] at h
    cases h
    simp
  | cons i is ih =>
    intro idx vals s s' vals' h o
    cases i with
    | value v =>
      rw [execInstrs] at h
      change EM.andThen _ _ s = _ at h
      unfold EM.andThen at h
      cases hx : execValue input v s with
      | mk r s1 =>
        rw [hx] at h
        cases r with
        | fail r => cases h
        | panic => cases h
        | ok x =>
          rw [ih _ _ _ _ _ h o, List.lookup_cons]
          constructor
          · rintro (h1 | ⟨k, v', rfl, hk⟩)
            · by_cases ho : o = idx
              · exact .inr ⟨0, v, ho, rfl⟩
              · have : (o == idx) = false := by simpa using ho
                rw [this] at h1
                exact .inl h1
            · exact .inr ⟨k + 1, v', by omega, by simpa using hk⟩
          · rintro (h1 | ⟨k, v', rfl, hk⟩)
            · left
              cases o == idx <;> simp [h1]
            · cases k with
              | zero => left; simp
              | succ k => exact .inr ⟨k, v', by omega, by simpa using hk⟩
    | execution a =>
      rw [execInstrs] at h
      change EM.andThen _ _ s = _ at h
      unfold EM.andThen at h
      cases hx : execApp input a s with
      | mk r s1 =>
        rw [hx] at h
        cases r with
        | fail r => cases h
        | panic => cases h
        | ok x =>
          rw [ih _ _ _ _ _ h o]
          constructor
          · rintro (h1 | ⟨k, v', rfl, hk⟩)
            · exact .inl h1
            · exact .inr ⟨k + 1, v', by omega, by simpa using hk⟩
          · rintro (h1 | ⟨k, v', rfl, hk⟩)
            · exact .inl h1
            · cases k with
              | zero => simp at hk
              | succ k => exact .inr ⟨k, v', by omega, by simpa using hk⟩

theorem collect_never (vals : List (Nat × Val W)) {e : Option Reason} : ∀ os : List Nat,
    (e = some .output → ∀ o ∈ os, (vals.lookup o).isSome) → Never e (collect vals os : EM σ (List (Val W))) := by
  intro os
  induction os with
  | nil => intro _; exact Never.pure _
  | cons o os ih =>
    intro h
    rw [collect]
    cases ho : vals.lookup o with
    | none =>
      intro s hs
      cases e with
      | none => exact hs
      | some r =>
        cases (hs : Reason.output = r)
        have := h rfl o (by simp)
        rw [ho] at this
        cases this
    | some v =>
      exact Never.bind (ih fun he o' ho' => h he o' (List.mem_cons_of_mem _ ho')) (fun a s s' _ => Never.pure _ s')

section
variable {I : Nat → Prop} {M : Module W σ → Prop} {O : List (PInstr W σ) → List Nat → Prop} {e : Option Reason}
  {input : List (Val W)}

mutual
theorem program_never (hI : e = some .input → ∀ i, I i → i < input.length)
    (hM : ∀ m, M m → ∀ ps, Never e (callModule m ps)) (hO : e = some .output → ∀ is os, O is os → ValidOutputs is os) :
    ∀ p : Program W σ, ProgramAll I M O p → Never e (execProgram input p)
  | .mk is os, .mk _ _ ho hi => by
    rw [execProgram]
    have ih := instrs_never hI hM hO is hi 0 []
    refine Never.bind ih ?_
    intro vals s s' hs
    refine collect_never vals os ?_ s'
    intro he o hmo
    obtain ⟨v, hv⟩ := hO he is os ho o hmo
    exact (execInstrs_lookup input is 0 [] s s' vals hs o).mpr (.inr ⟨o, v, by omega, hv⟩)

theorem instrs_never (hI : e = some .input → ∀ i, I i → i < input.length)
    (hM : ∀ m, M m → ∀ ps, Never e (callModule m ps)) (hO : e = some .output → ∀ is os, O is os → ValidOutputs is os) :
    ∀ is : List (PInstr W σ), (∀ i ∈ is, InstrAll I M O i) → ∀ idx vals, Never e (execInstrs input is idx vals)
  | [], _, _, _ => by rw [execInstrs]; exact Never.pure _
  | .value v :: is, h, idx, vals => by
    rw [execInstrs]
    have hv : ValueAll I M O v := by
      have := h _ List.mem_cons_self
      cases this; assumption
    have ih1 := value_never hI hM hO v hv
    have ih2 := fun x => instrs_never hI hM hO is (fun i hi => h i (List.mem_cons_of_mem _ hi)) (idx + 1) ((idx, x) :: vals)
    exact Never.bind ih1 (fun x s s' _ => ih2 x s')
  | .execution a :: is, h, idx, vals => by
    rw [execInstrs]
    have hv : AppAll I M O a := by
      have := h _ List.mem_cons_self
      cases this; assumption
    have ih1 := app_never hI hM hO a hv
    have ih2 := instrs_never hI hM hO is (fun i hi => h i (List.mem_cons_of_mem _ hi)) (idx + 1) vals
    exact Never.bind ih1 (fun x s s' _ => ih2 s')

theorem value_never (hI : e = some .input → ∀ i, I i → i < input.length)
    (hM : ∀ m, M m → ∀ ps, Never e (callModule m ps)) (hO : e = some .output → ∀ is os, O is os → ValidOutputs is os) :
    ∀ v : PValue W σ, ValueAll I M O v → Never e (execValue input v)
  | .input i, .input _ hi => by
    rw [execValue]
    cases hx : input[i]? with
    | some x => exact Never.pure _
    | none =>
      intro s hs
      cases e with
      | none => exact hs
      | some r =>
        cases (hs : Reason.input = r)
        have := hI rfl i hi
        rw [List.getElem?_eq_none_iff] at hx
        omega
  | .constant b, _ => by rw [execValue]; exact Never.pure _
  | .program p, .program _ hp => by
    rw [execValue]
    have ih := program_never hI hM hO p hp
    exact Never.bind ih (fun x s s' _ => Never.pure _ s')
  | .execution a, .execution _ ha => by
    rw [execValue]
    exact app_never hI hM hO a ha

theorem app_never (hI : e = some .input → ∀ i, I i → i < input.length)
    (hM : ∀ m, M m → ∀ ps, Never e (callModule m ps)) (hO : e = some .output → ∀ is os, O is os → ValidOutputs is os) :
    ∀ a : App W σ, AppAll I M O a → Never e (execApp input a)
  | .mk i m l, .mk _ _ _ hm hl => by
    rw [execApp]
    have ih := attachments_never hI hM hO l hl (fun _ => none)
    exact Never.bind ih (fun ps s s' _ => hM m hm ps s')

theorem attachments_never (hI : e = some .input → ∀ i, I i → i < input.length)
    (hM : ∀ m, M m → ∀ ps, Never e (callModule m ps)) (hO : e = some .output → ∀ is os, O is os → ValidOutputs is os) :
    ∀ l : List (Attachment W σ), (∀ a ∈ l, AttachmentAll I M O a) → ∀ ps, Never e (execAttachments input l ps)
  | [], _, _ => by rw [execAttachments]; exact Never.pure _
  | .mk v t :: l, h, ps => by
    rw [execAttachments]
    have hv : ValueAll I M O v := by
      have := h _ List.mem_cons_self
      cases this; assumption
    have ih1 := value_never hI hM hO v hv
    have ih2 := fun x => attachments_never hI hM hO l (fun i hi => h i (List.mem_cons_of_mem _ hi)) (ps.set t x)
    exact Never.bind ih1 (fun x s s' _ => ih2 x s')
end

end

/-! ### Outputs one by one -/

theorem collect_mapM (vals : List (Nat × Val W)) (s : σ) : ∀ os : List Nat,
    collect vals os s = (match os.mapM (fun o => vals.lookup o) with | some l => .ok l | none => .fail .output, s) := by
  intro os
  induction os with
  | nil => rfl
  | cons o os ih =>
    rw [collect]
    cases ho : vals.lookup o with
    | none => simp [List.mapM_cons, ho]; rfl
    | some v =>
      change EM.andThen _ _ s = _
      unfold EM.andThen
      rw [ih]
      cases hm : os.mapM (fun o => vals.lookup o) with
      | none => simp [List.mapM_cons, ho, hm]
      | some l => simp [List.mapM_cons, ho, hm]; rfl

theorem execute_split (input : List (Val W)) (is : List (PInstr W σ)) (s s' : σ) :
    execute input (.mk is []) s = (.ok [], s') ↔ ∃ vals, execInstrs input is 0 [] s = (.ok vals, s') := by
  unfold execute
  rw [execProgram]
  change EM.andThen _ _ s = _ ↔ _
  unfold EM.andThen
  cases hx : execInstrs input is 0 [] s with
  | mk r s1 =>
    cases r with
    | ok vals =>
      simp only [collect]
      constructor
      · intro h; cases h; exact ⟨_, rfl⟩
      · rintro ⟨v, hv⟩; cases hv; rfl
    | fail r => simp
    | panic => simp

theorem execute_collect (input : List (Val W)) (is : List (PInstr W σ)) (os : List Nat) (s s' : σ) (vals : List (Nat × Val W))
    (h : execInstrs input is 0 [] s = (.ok vals, s')) : execute input (.mk is os) s = collect vals os s' := by
  unfold execute
  rw [execProgram]
  change EM.andThen _ _ s = _
  unfold EM.andThen
  rw [h]

theorem execute_ok_instrs {input : List (Val W)} {is : List (PInstr W σ)} {os : List Nat} {s s' : σ} {outs : List (Val W)}
    (h : execute input (.mk is os) s = (.ok outs, s')) :
    ∃ vals, execInstrs input is 0 [] s = (.ok vals, s') ∧ os.mapM (fun o => vals.lookup o) = some outs := by
  unfold execute at h
  rw [execProgram] at h
  change EM.andThen _ _ s = _ at h
  unfold EM.andThen at h
  cases hx : execInstrs input is 0 [] s with
  | mk r s1 =>
    rw [hx] at h
    cases r with
    | fail r => cases h
    | panic => cases h
    | ok vals =>
      change collect vals os s1 = _ at h
      rw [collect_mapM] at h
      cases hm : os.mapM (fun o => vals.lookup o) with
      | none => rw [hm] at h; cases h
      | some l => rw [hm] at h; cases h; exact ⟨vals, rfl, hm⟩

theorem mapM_some_get {α β : Type} {f : α → Option β} : ∀ {l : List α} {r : List β}, l.mapM f = some r →
    r.length = l.length ∧ ∀ (j : Nat) a, l[j]? = some a → ∃ b, f a = some b ∧ r[j]? = some b := by
  intro l
  induction l with
  | nil => intro r h; cases h; simp
  | cons a l ih =>
    intro r h
    rw [List.mapM_cons] at h
    cases ha : f a with
    | none => rw [ha] at h; cases h
    | some b =>
      cases hl : l.mapM f with
      | none => rw [ha, hl] at h; cases h
      | some bs =>
        rw [ha, hl] at h
        cases h
        obtain ⟨h1, h2⟩ := ih hl
        refine ⟨by simp [h1], ?_⟩
        intro j x hj
        cases j with
        | zero => cases hj; exact ⟨b, ha, rfl⟩
        | succ j => exact h2 j x (by simpa using hj)

end BuildSpec
end Rodkina.Interp
