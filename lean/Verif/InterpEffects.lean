import Verif.InterpPure

/-!
# With modules that have effects, interpretation by name is direct interpretation when attached variables hold plain values
-/

namespace Rodkina.Interp

variable {W σ : Type}

/-- From every state two computations end in the same way and in the same state, with related results. -/
def Same {α β : Type} (m : EM σ α) (m' : EM σ β) (Q : α → β → Prop) : Prop :=
  ∀ s, (∃ a b s', m s = (.ok a, s') ∧ m' s = (.ok b, s') ∧ Q a b) ∨ (∃ r s', m s = (.fail r, s') ∧ m' s = (.fail r, s')) ∨
    (∃ s', m s = (.panic, s') ∧ m' s = (.panic, s'))

theorem Same.pure {α β : Type} {a : α} {b : β} {Q : α → β → Prop} (h : Q a b) :
    Same (pure a : EM σ α) (pure b : EM σ β) Q := fun s => .inl ⟨a, b, s, rfl, rfl, h⟩

theorem Same.stuck {α β : Type} {Q : α → β → Prop} : Same (stuck : EM σ α) (stuck : EM σ β) Q :=
  fun s => .inr (.inr ⟨s, rfl, rfl⟩)

theorem Same.bind {α β γ δ : Type} {m : EM σ α} {m' : EM σ β} {f : α → EM σ γ} {g : β → EM σ δ}
    {P : α → β → Prop} {Q : γ → δ → Prop} (h : Same m m' P)
    (hf : ∀ a b, (∃ s s', m s = (.ok a, s')) → P a b → Same (f a) (g b) Q) : Same (m >>= f) (m' >>= g) Q := by
  intro s
  show (∃ a b s', EM.andThen m f s = (.ok a, s') ∧ EM.andThen m' g s = (.ok b, s') ∧ Q a b) ∨
    (∃ r s', EM.andThen m f s = (.fail r, s') ∧ EM.andThen m' g s = (.fail r, s')) ∨
    (∃ s', EM.andThen m f s = (.panic, s') ∧ EM.andThen m' g s = (.panic, s'))
  unfold EM.andThen
  rcases h s with ⟨a, b, s', h1, h2, h3⟩ | ⟨r, s', h1, h2⟩ | ⟨s', h1, h2⟩
  · rw [h1, h2]
    exact hf a b ⟨s, s', h1⟩ h3 s'
  · rw [h1, h2]
    exact .inr (.inl ⟨r, s', rfl, rfl⟩)
  · rw [h1, h2]
    exact .inr (.inr ⟨s', rfl, rfl⟩)

theorem Same.eq {α : Type} {m m' : EM σ α} (h : Same m m' Eq) : m = m' := by
  funext s
  rcases h s with ⟨a, b, s', h1, h2, rfl⟩ | ⟨r, s', h1, h2⟩ | ⟨s', h1, h2⟩ <;> rw [h1, h2]

theorem Same.refl {α : Type} (m : EM σ α) : Same m m Eq := by
  intro s
  rcases hm : m s with ⟨o, s'⟩
  cases o with
  | ok a => exact .inl ⟨a, a, s', rfl, rfl, rfl⟩
  | fail r => exact .inr (.inl ⟨r, s', rfl, rfl⟩)
  | panic => exact .inr (.inr ⟨s', rfl, rfl⟩)

/-- The environment by name and the direct one, after the instructions `pre`; the variables in `attached` are attached. -/
structure EnvSame (attached : String → Prop) (pre : List Instr) (e : Env W σ (EM σ (Val W)))
    (d : Env W σ (Val W)) : Prop where
  modules : e.modules = d.modules
  apps : ∀ n, e.apps n = (d.apps n).map (fun a => (a.1, asThunks a.2))
  nInputs : e.nInputs = d.nInputs
  outNames : e.outNames = d.outNames
  outs : e.outs = d.outs
  vars : ∀ c, attached c → (e.vars c <|> e.inputs c) = (d.vars c).map pure
  inputs : ∀ c m, e.inputs c = some m → ∃ v, d.vars c = some v ∧ m = pure v
  declared : ∀ c, (e.inputs c).isSome ↔ .parameter c true ∈ pre
  assigned : ∀ c, (e.vars c).isSome → ∃ v, .assignment c v ∈ pre

theorem EnvSame.empty (attached : String → Prop) : EnvSame attached [] ({} : Env W σ (EM σ (Val W))) {} := by
  constructor <;> simp

theorem same_app {attached : String → Prop} {pre : List Instr}
    {e : Env W σ (EM σ (Val W))} {d : Env W σ (Val W)} (h : EnvSame attached pre e d) (a : String) :
    Same (match e.apps a with
      | none => stuck
      | some (m, atts) => runAttached atts (fun _ => none) >>= fun ps => callModule m ps)
      (match d.apps a with
      | none => stuck
      | some (m, atts) => callModule m (paramsOf atts)) Eq := by
  rw [h.apps a]
  cases hd : d.apps a with
  | none => exact Same.stuck
  | some x =>
    obtain ⟨m, atts⟩ := x
    show Same (runAttached (asThunks atts) (fun _ => none) >>= fun ps => callModule m ps)
      (callModule m (paramsOf atts)) Eq
    rw [runAttached_asThunks, pure_bind]
    exact Same.refl _

mutual
theorem sameValue (all : List (Module W σ)) (input : List (Val W)) (v : SValue)
    (attached : String → Prop) (pre : List Instr) (e : Env W σ (EM σ (Val W))) (d : Env W σ (Val W)) (h : EnvSame attached pre e d)
    (hk : v.InputsKept) (hn : v.inputsAtMost input.length) (hp : v.PlainAttached) (ex : Nat → Prop) (hs : v.Scoped ex pre) :
    Same (byNameValue all input v e) (directValue all input v d) Eq ∧
    (v.plain → ∃ x, byNameValue all input v e = pure x) := by
  cases v with
  | var x =>
    rw [byNameValue, directValue]
    rw [SValue.Scoped] at hs
    obtain ⟨m, hm⟩ := Option.isSome_iff_exists.mp ((h.declared x).mpr hs)
    obtain ⟨v, hv, rfl⟩ := h.inputs x m hm
    rw [hm, hv]
    exact ⟨Same.pure rfl, fun _ => ⟨v, rfl⟩⟩
  | constant b => rw [byNameValue, directValue]; exact ⟨Same.pure rfl, fun _ => ⟨_, rfl⟩⟩
  | instructions l =>
    rw [byNameValue, directValue]
    rw [SValue.InputsKept] at hk
    rw [SValue.inputsAtMost] at hn
    rw [SValue.Scoped] at hs
    rw [SValue.PlainAttached] at hp
    refine ⟨Same.bind (sameList all input l (fun c => ∃ t a, .attachment c t a ∈ l) [] {} {} (EnvSame.empty _) (by simpa using hk.1) hk.2
      (by simpa using hn.1) hn.2 (fun c t a hc => ⟨t, a, hc⟩) (fun c v ⟨t, a, hc⟩ hv => hp.1 c t a v hc hv) hp.2 ex hs.1) ?_, fun h => h.elim⟩
    intro a b _ hab
    rw [hab.outs]
    exact Same.pure rfl
  | execution a =>
    rw [byNameValue, directValue]
    exact ⟨same_app h a, fun h => h.elim⟩
termination_by sizeOf v

theorem sameList (all : List (Module W σ)) (input : List (Val W)) (src : List Instr) (attached : String → Prop)
    (pre : List Instr) (e : Env W σ (EM σ (Val W))) (d : Env W σ (Val W)) (h : EnvSame attached pre e d)
    (hk : ∀ x v, .parameter x true ∈ pre ++ src → .assignment x v ∉ pre ++ src) (hnk : nestedInputsKept src)
    (hin : e.nInputs + inputParameters src ≤ input.length) (hn : nestedInputsAtMost input.length src)
    (hatt : ∀ c t a, .attachment c t a ∈ src → attached c)
    (hplain : ∀ c v, attached c → .assignment c v ∈ src → v.plain) (hp : nestedPlainAttached src)
    (ex : Nat → Prop) (hs : ScopedAfter ex pre src) :
    Same (byNameList all input src e) (directList all input src d) (EnvSame attached (pre ++ src)) := by
  cases src with
  | nil => rw [byNameList, directList, List.append_nil]; exact Same.pure h
  | cons i is =>
    rw [byNameList, directList]
    rw [nestedInputsKept] at hnk
    rw [nestedInputsAtMost] at hn
    rw [nestedPlainAttached] at hp
    rw [ScopedAfter] at hs
    have hk' : ∀ x v, .parameter x true ∈ (pre ++ [i]) ++ is → .assignment x v ∉ (pre ++ [i]) ++ is := by
      simpa using hk
    have hle : inputParameters is ≤ inputParameters (i :: is) := by
      unfold inputParameters
      exact ((List.sublist_cons_self i is).filter _).length_le
    refine Same.bind (P := fun e d => EnvSame attached (pre ++ [i]) e d ∧
      e.nInputs + inputParameters is ≤ input.length) ?_ (fun a b _ hab => by
        have := sameList all input is attached (pre ++ [i]) a b hab.1 hk' hnk.2 hab.2 hn.2
          (fun c t a h => hatt c t a (List.mem_cons_of_mem _ h)) (fun c v h1 h2 => hplain c v h1 (List.mem_cons_of_mem _ h2)) hp.2 ex hs.2
        simpa using this)
    cases i with
    | module index name =>
      rw [byNameInstr, directInstr]
      cases hf : lastModule all index with
      | none => exact Same.stuck
      | some m =>
        refine Same.pure ⟨?_, by simp only; omega⟩
        refine { h with modules := by simp only [h.modules], declared := ?_, assigned := ?_ }
        · intro c; simp [h.declared c]
        · intro c hc; obtain ⟨v, hv⟩ := h.assigned c hc; exact ⟨v, by simp [hv]⟩
    | application module name =>
      rw [byNameInstr, directInstr, h.modules]
      cases hm : d.modules module with
      | none => exact Same.stuck
      | some m =>
        refine Same.pure ⟨?_, by simp only; omega⟩
        refine { h with modules := rfl, apps := ?_, declared := ?_, assigned := ?_ }
        · intro n
          simp only [setAt]
          split
          · rfl
          · exact h.apps n
        · intro c; simp [h.declared c]
        · intro c hc; obtain ⟨v, hv⟩ := h.assigned c hc; exact ⟨v, by simp [hv]⟩
    | parameter name isInput =>
      cases isInput with
      | true =>
        rw [byNameInstr, directInstr, h.nInputs]
        have hcount : inputParameters (.parameter name true :: is) = inputParameters is + 1 := by
          simp [inputParameters]
        rw [hcount, h.nInputs] at hin
        have hlt : d.nInputs < input.length := by omega
        have hat : inputAt (σ := σ) input d.nInputs = pure input[d.nInputs] := by
          simp [inputAt, hlt]
        rw [hat, pure_bind]
        have hvn : e.vars name = none := by
          cases hv : e.vars name with
          | none => rfl
          | some m =>
            obtain ⟨v, hv'⟩ := h.assigned name (by simp [hv])
            exact absurd (List.mem_append_left _ hv') (hk name v (by simp))
        refine Same.pure ⟨?_, by simp only; omega⟩
        refine { h with nInputs := rfl, vars := ?_, inputs := ?_, declared := ?_, assigned := ?_ }
        · intro c hatt
          simp only [setAt]
          split
          · next hc => rw [hc, hvn]; rfl
          · exact h.vars c hatt
        · intro c m hm
          simp only [setAt] at hm ⊢
          split at hm
          · next hc => cases hm; exact ⟨_, by rw [if_pos hc], rfl⟩
          · next hc => rw [if_neg hc]; exact h.inputs c m hm
        · intro c
          simp only [setAt]
          split
          · next hc => simp [hc]
          · next hc => simp [h.declared c, hc]
        · intro c hc; obtain ⟨v, hv⟩ := h.assigned c hc; exact ⟨v, by simp [hv]⟩
      | false =>
        rw [byNameInstr, directInstr]
        refine Same.pure ⟨?_, by simp only; omega⟩
        refine { h with outNames := by simp only [h.outNames], declared := ?_, assigned := ?_ }
        · intro c; simp [h.declared c]
        · intro c hc; obtain ⟨v, hv⟩ := h.assigned c hc; exact ⟨v, by simp [hv]⟩
    | assignment name v =>
      rw [byNameInstr, directInstr]
      rw [Instr.InputsKept] at hnk
      rw [Instr.inputsAtMost] at hn
      rw [Instr.Scoped] at hs
      rw [Instr.PlainAttached] at hp
      obtain ⟨hv1, hv2⟩ := sameValue all input v attached pre e d h hnk.1 hn.1 hp.1 ex hs.1
      refine Same.bind hv1 ?_
      rintro x _ ⟨s0, s1, hx⟩ rfl
      refine Same.pure ⟨?_, by simp only; omega⟩
      have hin' : e.inputs name = none := by
        cases hv : e.inputs name with
        | none => rfl
        | some m =>
          have := (h.declared name).mp (by simp [hv])
          exact absurd (by simp) (hk name v (List.mem_append_left _ this))
      refine { h with outs := by simp only [h.outs, h.outNames], vars := ?_, inputs := ?_, declared := ?_, assigned := ?_ }
      · intro c hc
        simp only [setAt]
        split
        · next hcn =>
          subst hcn
          obtain ⟨y, hy⟩ := hv2 (hplain c v hc (List.mem_cons_self ..))
          rw [hy] at hx ⊢
          cases hx
          rfl
        · exact h.vars c hc
      · intro c m hm
        simp only [setAt]
        split
        · next hc =>
          have hm' : e.inputs c = some m := hm
          rw [hc, hin'] at hm'
          cases hm'
        · exact h.inputs c m hm
      · intro c; simp [h.declared c]
      · intro c hc
        simp only [setAt] at hc
        split at hc
        · next hcn => exact ⟨v, by simp [hcn]⟩
        · obtain ⟨v, hv⟩ := h.assigned c hc
          exact ⟨v, by simp [hv]⟩
    | attachment c t a =>
      rw [byNameInstr, directInstr, h.vars c (hatt c t a (List.mem_cons_self ..)), h.apps a]
      cases hv : d.vars c with
      | none => exact Same.stuck
      | some x =>
        cases ha : d.apps a with
        | none => exact Same.stuck
        | some ap =>
          obtain ⟨m, atts⟩ := ap
          refine Same.pure ⟨?_, by simp only; omega⟩
          refine { h with apps := ?_, declared := ?_, assigned := ?_ }
          · intro n
            simp only [setAt]
            split
            · simp [asThunks]
            · exact h.apps n
          · intro c; simp [h.declared c]
          · intro c hc; obtain ⟨v, hv⟩ := h.assigned c hc; exact ⟨v, by simp [hv]⟩
    | execution a =>
      rw [byNameInstr, directInstr]
      have key := same_app h a
      have h' : EnvSame attached (pre ++ [.execution a]) e d := by
        refine { h with declared := ?_, assigned := ?_ }
        · intro c; simp [h.declared c]
        · intro c hc; obtain ⟨v, hv⟩ := h.assigned c hc; exact ⟨v, by simp [hv]⟩
      have hin' : e.nInputs + inputParameters is ≤ input.length := by omega
      rw [h.apps a] at key ⊢
      cases ha : d.apps a with
      | none => exact Same.stuck
      | some ap =>
        rw [ha] at key
        exact Same.bind key (fun _ _ _ _ => Same.pure ⟨h', hin'⟩)
termination_by sizeOf src
decreasing_by
  all_goals subst_vars; simp only [List.cons.sizeOf_spec, Instr.assignment.sizeOf_spec]; omega
end

theorem byName_direct_effects (all : List (Module W σ)) (input : List (Val W)) (src : List Instr)
    (hk : InputsKept src) (hn : EnoughInputs input.length src) (hp : PlainAttached src) (hs : WellScoped all src) :
    byName all input src = direct all input src := by
  unfold byName direct
  refine Same.eq (Same.bind (sameList all input src (fun c => ∃ t a, .attachment c t a ∈ src) [] {} {} (EnvSame.empty _)
    (by simpa using hk.1) hk.2 (by simpa using hn.1) hn.2 (fun c t a hc => ⟨t, a, hc⟩) (fun c v ⟨t, a, hc⟩ hv => hp.1 c t a v hc hv) hp.2 _ hs.1) ?_)
  intro a b _ hab
  rw [hab.outs]
  exact Same.pure rfl

end Rodkina.Interp
