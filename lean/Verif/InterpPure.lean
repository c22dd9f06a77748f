import Verif.InterpSem

/-!
# With pure modules, interpretation by name is direct interpretation
-/

namespace Rodkina.Interp

variable {W σ : Type}

/-- Two computations that do not depend on the state end in the same way, with related results. -/
def Sim {α β : Type} (m : EM σ α) (m' : EM σ β) (Q : α → β → Prop) : Prop :=
  (∃ a b, m = pure a ∧ m' = pure b ∧ Q a b) ∨ (∃ r, m = EM.fail r ∧ m' = EM.fail r) ∨
    (m = stuck ∧ m' = stuck)

theorem fail_bind {α β : Type} (r : Reason) (f : α → EM σ β) : (EM.fail r : EM σ α) >>= f = EM.fail r := rfl

theorem stuck_bind {α β : Type} (f : α → EM σ β) : (stuck : EM σ α) >>= f = stuck := rfl

theorem Sim.pure {α β : Type} {a : α} {b : β} {Q : α → β → Prop} (h : Q a b) :
    Sim (pure a : EM σ α) (pure b : EM σ β) Q := .inl ⟨a, b, rfl, rfl, h⟩

theorem Sim.stuck {α β : Type} {Q : α → β → Prop} : Sim (stuck : EM σ α) (stuck : EM σ β) Q :=
  .inr (.inr ⟨rfl, rfl⟩)

theorem Sim.bind {α β γ δ : Type} {m : EM σ α} {m' : EM σ β} {f : α → EM σ γ} {g : β → EM σ δ}
    {P : α → β → Prop} {Q : γ → δ → Prop} (h : Sim m m' P)
    (hf : ∀ a b, m = Pure.pure a → P a b → Sim (f a) (g b) Q) : Sim (m >>= f) (m' >>= g) Q := by
  rcases h with ⟨a, b, rfl, rfl, h⟩ | ⟨r, rfl, rfl⟩ | ⟨rfl, rfl⟩
  · rw [pure_bind, pure_bind]; exact hf a b rfl h
  · rw [fail_bind, fail_bind]; exact .inr (.inl ⟨r, rfl, rfl⟩)
  · exact Sim.stuck

theorem Sim.eq {α : Type} {m m' : EM σ α} (h : Sim m m' Eq) : m = m' := by
  rcases h with ⟨a, b, rfl, rfl, rfl⟩ | ⟨r, rfl, rfl⟩ | ⟨rfl, rfl⟩ <;> rfl

theorem lastModule_mem {all : List (Module W σ)} {i : Nat} {m : Module W σ} (h : lastModule all i = some m) :
    m ∈ all := (lastModule_some h).1

theorem sim_callModule {all : List (Module W σ)} (hp : PureModules all) {m : Module W σ} (hm : m ∈ all)
    (ps : Params W) : Sim (callModule m ps) (callModule m ps) Eq := by
  obtain ⟨f, hf⟩ := hp m hm
  have : callModule m ps = fun s => match f ps with
      | .ok v => (.ok v, s)
      | .err => (.fail .module, s)
      | .panic => (.panic, s) := by
    funext s
    unfold callModule
    rw [hf]
    cases f ps <;> rfl
  rw [this]
  cases f ps with
  | ok v => exact .inl ⟨v, v, rfl, rfl, rfl⟩
  | err => exact .inr (.inl ⟨.module, rfl, rfl⟩)
  | panic => exact .inr (.inr ⟨rfl, rfl⟩)

/-- Attached values as computations. -/
def asThunks (atts : List (Nat × Val W)) : List (Nat × EM σ (Val W)) := atts.map (fun a => (a.1, pure a.2))

theorem runAttached_asThunks (atts : List (Nat × Val W)) (ps : Params W) :
    runAttached (asThunks atts : List (Nat × EM σ (Val W))) ps =
      pure (atts.foldl (fun ps a => ps.set a.1 a.2) ps) := by
  induction atts generalizing ps with
  | nil => rfl
  | cons a atts ih =>
    show (pure a.2 >>= fun x => runAttached (asThunks atts) (ps.set a.1 x)) = _
    rw [pure_bind, ih]
    rfl

/-- The environment by name and the direct one, after the instructions `pre`. -/
structure EnvSim (all : List (Module W σ)) (pre : List Instr) (e : Env W σ (EM σ (Val W)))
    (d : Env W σ (Val W)) : Prop where
  modules : e.modules = d.modules
  apps : ∀ n, e.apps n = (d.apps n).map (fun a => (a.1, asThunks a.2))
  nInputs : e.nInputs = d.nInputs
  outNames : e.outNames = d.outNames
  outs : e.outs = d.outs
  vars : ∀ c, (e.vars c <|> e.inputs c) = (d.vars c).map pure
  inputs : ∀ c m, e.inputs c = some m → ∃ v, d.vars c = some v ∧ m = pure v
  declared : ∀ c, (e.inputs c).isSome ↔ .parameter c true ∈ pre
  assigned : ∀ c, (e.vars c).isSome → ∃ v, .assignment c v ∈ pre
  mem_modules : ∀ n m, d.modules n = some m → m ∈ all
  mem_apps : ∀ n m atts, d.apps n = some (m, atts) → m ∈ all

theorem EnvSim.empty (all : List (Module W σ)) : EnvSim all [] {} {} := by
  constructor <;> simp

theorem sim_app {all : List (Module W σ)} (hp : PureModules all) {pre : List Instr}
    {e : Env W σ (EM σ (Val W))} {d : Env W σ (Val W)} (h : EnvSim all pre e d) (a : String) :
    Sim (match e.apps a with
      | none => stuck
      | some (m, atts) => runAttached atts (fun _ => none) >>= fun ps => callModule m ps)
      (match d.apps a with
      | none => stuck
      | some (m, atts) => callModule m (paramsOf atts)) Eq := by
  rw [h.apps a]
  cases hd : d.apps a with
  | none => exact Sim.stuck
  | some x =>
    obtain ⟨m, atts⟩ := x
    show Sim (runAttached (asThunks atts) (fun _ => none) >>= fun ps => callModule m ps)
      (callModule m (paramsOf atts)) Eq
    rw [runAttached_asThunks, pure_bind]
    exact sim_callModule hp (h.mem_apps a m atts hd) _

mutual
theorem simValue {all : List (Module W σ)} (hp : PureModules all) (input : List (Val W)) (v : SValue)
    (pre : List Instr) (e : Env W σ (EM σ (Val W))) (d : Env W σ (Val W)) (h : EnvSim all pre e d)
    (hk : v.InputsKept) (hn : v.inputsAtMost input.length) (ex : Nat → Prop) (hs : v.Scoped ex pre) :
    Sim (byNameValue all input v e) (directValue all input v d) Eq := by
  cases v with
  | var x =>
    rw [byNameValue, directValue]
    rw [SValue.Scoped] at hs
    obtain ⟨m, hm⟩ := Option.isSome_iff_exists.mp ((h.declared x).mpr hs)
    obtain ⟨v, hv, rfl⟩ := h.inputs x m hm
    rw [hm, hv]
    exact Sim.pure rfl
  | constant b => rw [byNameValue, directValue]; exact Sim.pure rfl
  | instructions l =>
    rw [byNameValue, directValue]
    rw [SValue.InputsKept] at hk
    rw [SValue.inputsAtMost] at hn
    rw [SValue.Scoped] at hs
    refine Sim.bind (simList hp input l [] {} {} (EnvSim.empty all) (by simpa using hk.1) hk.2
      (by simpa using hn.1) hn.2 ex hs.1) ?_
    intro a b _ hab
    rw [hab.outs]
    exact Sim.pure rfl
  | execution a =>
    rw [byNameValue, directValue]
    exact sim_app hp h a
termination_by sizeOf v

theorem simList {all : List (Module W σ)} (hp : PureModules all) (input : List (Val W)) (src : List Instr)
    (pre : List Instr) (e : Env W σ (EM σ (Val W))) (d : Env W σ (Val W)) (h : EnvSim all pre e d)
    (hk : ∀ x v, .parameter x true ∈ pre ++ src → .assignment x v ∉ pre ++ src) (hnk : nestedInputsKept src)
    (hin : e.nInputs + inputParameters src ≤ input.length) (hn : nestedInputsAtMost input.length src)
    (ex : Nat → Prop) (hs : ScopedAfter ex pre src) :
    Sim (byNameList all input src e) (directList all input src d) (EnvSim all (pre ++ src)) := by
  cases src with
  | nil => rw [byNameList, directList, List.append_nil]; exact Sim.pure h
  | cons i is =>
    rw [byNameList, directList]
    rw [nestedInputsKept] at hnk
    rw [nestedInputsAtMost] at hn
    rw [ScopedAfter] at hs
    have hk' : ∀ x v, .parameter x true ∈ (pre ++ [i]) ++ is → .assignment x v ∉ (pre ++ [i]) ++ is := by
      simpa using hk
    have hle : inputParameters is ≤ inputParameters (i :: is) := by
      unfold inputParameters
      exact ((List.sublist_cons_self i is).filter _).length_le
    refine Sim.bind (P := fun e d => EnvSim all (pre ++ [i]) e d ∧
      e.nInputs + inputParameters is ≤ input.length) ?_ (fun a b _ hab =>
        by simpa using simList hp input is (pre ++ [i]) a b hab.1 hk' hnk.2 hab.2 hn.2 ex hs.2)
    cases i with
    | module index name =>
      rw [byNameInstr, directInstr]
      cases hf : lastModule all index with
      | none => exact Sim.stuck
      | some m =>
        refine Sim.pure ⟨?_, by simp only; omega⟩
        refine { h with modules := by simp only [h.modules], declared := ?_, assigned := ?_, mem_modules := ?_ }
        · intro c; simp [h.declared c]
        · intro c hc; obtain ⟨v, hv⟩ := h.assigned c hc; exact ⟨v, by simp [hv]⟩
        · intro n m' hm
          simp only [setAt] at hm
          split at hm
          · cases hm; exact lastModule_mem hf
          · exact h.mem_modules n m' hm
    | application module name =>
      rw [byNameInstr, directInstr, h.modules]
      cases hm : d.modules module with
      | none => exact Sim.stuck
      | some m =>
        refine Sim.pure ⟨?_, by simp only; omega⟩
        refine { h with modules := rfl, apps := ?_, declared := ?_, assigned := ?_, mem_apps := ?_ }
        · intro n
          simp only [setAt]
          split
          · rfl
          · exact h.apps n
        · intro c; simp [h.declared c]
        · intro c hc; obtain ⟨v, hv⟩ := h.assigned c hc; exact ⟨v, by simp [hv]⟩
        · intro n m' atts ha
          simp only [setAt] at ha
          split at ha
          · cases ha; exact h.mem_modules module m hm
          · exact h.mem_apps n m' atts ha
    | parameter name isInput =>
      cases isInput with
      | true =>
        rw [byNameInstr, directInstr, h.nInputs]
        have hcount : inputParameters (.parameter name true :: is) = inputParameters is + 1 := by
          simp [inputParameters]
        rw [hcount, h.nInputs] at hin
        have hlt : d.nInputs < input.length := by omega
        have hat : inputAt (σ := σ) input d.nInputs = pure input[d.nInputs] := by
          simp [inputAt, hlt]
        rw [hat, pure_bind]
        have hvn : e.vars name = none := by
          cases hv : e.vars name with
          | none => rfl
          | some m =>
            obtain ⟨v, hv'⟩ := h.assigned name (by simp [hv])
            exact absurd (List.mem_append_left _ hv') (hk name v (by simp))
        refine Sim.pure ⟨?_, by simp only; omega⟩
        refine { h with nInputs := rfl, vars := ?_, inputs := ?_, declared := ?_, assigned := ?_ }
        · intro c
          simp only [setAt]
          split
          · next hc => rw [hc, hvn]; rfl
          · exact h.vars c
        · intro c m hm
          simp only [setAt] at hm ⊢
          split at hm
          · next hc => cases hm; exact ⟨_, by rw [if_pos hc], rfl⟩
          · next hc => rw [if_neg hc]; exact h.inputs c m hm
        · intro c
          simp only [setAt]
          split
          · next hc => simp [hc]
          · next hc => simp [h.declared c, hc]
        · intro c hc; obtain ⟨v, hv⟩ := h.assigned c hc; exact ⟨v, by simp [hv]⟩
      | false =>
        rw [byNameInstr, directInstr]
        refine Sim.pure ⟨?_, by simp only; omega⟩
        refine { h with outNames := by simp only [h.outNames], declared := ?_, assigned := ?_ }
        · intro c; simp [h.declared c]
        · intro c hc; obtain ⟨v, hv⟩ := h.assigned c hc; exact ⟨v, by simp [hv]⟩
    | assignment name v =>
      rw [byNameInstr, directInstr]
      rw [Instr.InputsKept] at hnk
      rw [Instr.inputsAtMost] at hn
      rw [Instr.Scoped] at hs
      refine Sim.bind (simValue hp input v pre e d h hnk.1 hn.1 ex hs.1) ?_
      rintro x _ hx rfl
      rw [hx]
      refine Sim.pure ⟨?_, by simp only; omega⟩
      have hin' : e.inputs name = none := by
        cases hv : e.inputs name with
        | none => rfl
        | some m =>
          have := (h.declared name).mp (by simp [hv])
          exact absurd (by simp) (hk name v (List.mem_append_left _ this))
      refine { h with outs := by simp only [h.outs, h.outNames], vars := ?_, inputs := ?_, declared := ?_, assigned := ?_ }
      · intro c
        simp only [setAt]
        split
        · rfl
        · exact h.vars c
      · intro c m hm
        simp only [setAt]
        split
        · next hc =>
          have hm' : e.inputs c = some m := hm
          rw [hc, hin'] at hm'
          cases hm'
        · exact h.inputs c m hm
      · intro c; simp [h.declared c]
      · intro c hc
        simp only [setAt] at hc
        split at hc
        · next hcn => exact ⟨v, by simp [hcn]⟩
        · obtain ⟨v, hv⟩ := h.assigned c hc
          exact ⟨v, by simp [hv]⟩
    | attachment c t a =>
      rw [byNameInstr, directInstr, h.vars c, h.apps a]
      cases hv : d.vars c with
      | none => exact Sim.stuck
      | some x =>
        cases ha : d.apps a with
        | none => exact Sim.stuck
        | some ap =>
          obtain ⟨m, atts⟩ := ap
          refine Sim.pure ⟨?_, by simp only; omega⟩
          refine { h with apps := ?_, declared := ?_, assigned := ?_, mem_apps := ?_ }
          · intro n
            simp only [setAt]
            split
            · simp [asThunks]
            · exact h.apps n
          · intro c; simp [h.declared c]
          · intro c hc; obtain ⟨v, hv⟩ := h.assigned c hc; exact ⟨v, by simp [hv]⟩
          · intro n m' atts' hm
            simp only [setAt] at hm
            split at hm
            · cases hm; exact h.mem_apps a m atts ha
            · exact h.mem_apps n m' atts' hm
    | execution a =>
      rw [byNameInstr, directInstr]
      have key := sim_app hp h a
      have h' : EnvSim all (pre ++ [.execution a]) e d := by
        refine { h with declared := ?_, assigned := ?_ }
        · intro c; simp [h.declared c]
        · intro c hc; obtain ⟨v, hv⟩ := h.assigned c hc; exact ⟨v, by simp [hv]⟩
      have hin' : e.nInputs + inputParameters is ≤ input.length := by omega
      rw [h.apps a] at key ⊢
      cases ha : d.apps a with
      | none => exact Sim.stuck
      | some ap =>
        rw [ha] at key
        exact Sim.bind key (fun _ _ _ _ => Sim.pure ⟨h', hin'⟩)
termination_by sizeOf src
decreasing_by
  all_goals subst_vars; simp only [List.cons.sizeOf_spec, Instr.assignment.sizeOf_spec]; omega
end

theorem byName_direct {all : List (Module W σ)} (hp : PureModules all) (input : List (Val W)) (src : List Instr)
    (hk : InputsKept src) (hn : EnoughInputs input.length src) (hs : WellScoped all src) :
    byName all input src = direct all input src := by
  unfold byName direct
  refine Sim.eq (Sim.bind (simList hp input src [] {} {} (EnvSim.empty all) (by simpa using hk.1) hk.2
    (by simpa using hn.1) hn.2 _ hs.1) ?_)
  intro a b _ hab
  rw [hab.outs]
  exact Sim.pure rfl

end Rodkina.Interp
