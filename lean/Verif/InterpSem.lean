import Verif.InterpScope

/-!
# Lemmas about interpretation by name: failures, outputs, purity
-/

namespace Rodkina.Interp

variable {W σ : Type}

/-! ## Failures -/

/-- Does not fail for the reason `r`, and a result satisfies `Q`. -/
def Avoids {α : Type} (r : Reason) (m : EM σ α) (Q : α → Prop) : Prop :=
  ∀ s, (m s).1 ≠ .fail r ∧ ∀ a, (m s).1 = .ok a → Q a

theorem Avoids.pure {α : Type} {r : Reason} {a : α} {Q : α → Prop} (h : Q a) :
    Avoids r (pure a : EM σ α) Q := by
  intro s
  refine ⟨by simp [pure_run], fun b hb => ?_⟩
  simp only [pure_run, Outcome.ok.injEq] at hb
  exact hb ▸ h

theorem Avoids.bind {α β : Type} {r : Reason} {m : EM σ α} {f : α → EM σ β} {P : α → Prop} {Q : β → Prop}
    (h : Avoids r m P) (hf : ∀ a, P a → Avoids r (f a) Q) : Avoids r (m >>= f) Q := by
  intro s
  obtain ⟨h1, h2⟩ := h s
  rw [bind_run]
  rcases hm : m s with ⟨o, s'⟩
  rw [hm] at h1 h2
  cases o with
  | ok a => exact hf a (h2 a rfl) s'
  | fail r' => exact ⟨by simpa using h1, fun a ha => by cases ha⟩
  | panic => exact ⟨by simp, fun a ha => by cases ha⟩

theorem Avoids.stuck {α : Type} {r : Reason} {Q : α → Prop} : Avoids r (stuck : EM σ α) Q := by
  intro s
  exact ⟨by simp [Interp.stuck], fun a ha => by simp [Interp.stuck] at ha⟩

theorem Avoids.mono {α : Type} {r : Reason} {m : EM σ α} {P Q : α → Prop} (h : Avoids r m P)
    (hpq : ∀ a, P a → Q a) : Avoids r m Q := fun s => ⟨(h s).1, fun a ha => hpq a ((h s).2 a ha)⟩

theorem Avoids.callModule {r : Reason} (hr : r ≠ .module) (m : Module W σ) (ps : Params W) :
    Avoids r (callModule m ps) (fun _ => True) := by
  intro s
  refine ⟨?_, fun _ _ => trivial⟩
  unfold Interp.callModule
  rcases m.fn ps s with ⟨_ | _ | _, s'⟩ <;> simp
  exact fun h => hr h.symm

/-- The thunks of an environment do not fail for the reason `r`. -/
structure EnvAvoids (r : Reason) (e : Env W σ (EM σ (Val W))) : Prop where
  apps : ∀ n m atts, e.apps n = some (m, atts) → ∀ a ∈ atts, Avoids r a.2 (fun _ => True)
  inputs : ∀ n m, e.inputs n = some m → Avoids r m (fun _ => True)
  vars : ∀ n m, e.vars n = some m → Avoids r m (fun _ => True)

theorem avoids_runAttached {r : Reason} (atts : List (Nat × EM σ (Val W)))
    (h : ∀ a ∈ atts, Avoids r a.2 (fun _ => True)) (ps : Params W) :
    Avoids r (runAttached atts ps) (fun _ => True) := by
  induction atts generalizing ps with
  | nil => exact Avoids.pure trivial
  | cons a atts ih =>
    exact Avoids.bind (h a (List.mem_cons_self ..))
      (fun _ _ => ih (fun a ha => h a (List.mem_cons_of_mem _ ha)) _)

theorem avoids_run {r : Reason} (hr : r ≠ .module) (m : Module W σ) (atts : List (Nat × EM σ (Val W)))
    (h : ∀ a ∈ atts, Avoids r a.2 (fun _ => True)) :
    Avoids r (runAttached atts (fun _ => none) >>= fun ps => callModule m ps) (fun _ => True) :=
  Avoids.bind (avoids_runAttached atts h _) (fun _ _ => Avoids.callModule hr _ _)

/-- The inputs that are asked for are there, if that matters. -/
def InputsFine (r : Reason) (input : List (Val W)) (used : Nat) (src : List Instr) : Prop :=
  r = .input → used + inputParameters src ≤ input.length ∧ nestedInputsAtMost input.length src

theorem avoids_inputAt {r : Reason} (hr : r ≠ .module) (input : List (Val W)) (i : Nat)
    (h : r = .input → i < input.length) : Avoids r (inputAt (σ := σ) input i) (fun _ => True) := by
  intro s
  refine ⟨?_, fun _ _ => trivial⟩
  unfold inputAt
  cases hi : input[i]? with
  | some v => simp [pure_run]
  | none =>
    cases r with
    | input =>
      have := h rfl
      rw [List.getElem?_eq_none_iff] at hi
      omega
    | output => simp [EM.fail]
    | module => simp [EM.fail]

mutual
theorem byNameValue_avoids {r : Reason} (hr : r ≠ .module) (all : List (Module W σ)) (input : List (Val W))
    (v : SValue) (e : Env W σ (EM σ (Val W))) (he : EnvAvoids r e)
    (hin : r = .input → v.inputsAtMost input.length) :
    Avoids r (byNameValue all input v e) (fun _ => True) := by
  cases v with
  | var x =>
    rw [byNameValue]
    cases h : e.inputs x with
    | none => exact Avoids.stuck
    | some m => exact he.inputs x m h
  | constant b => rw [byNameValue]; exact Avoids.pure trivial
  | instructions l =>
    rw [byNameValue]
    refine Avoids.bind (byNameList_avoids hr all input l {} ⟨by simp, by simp, by simp⟩ ?_)
      (fun _ _ => Avoids.pure trivial)
    intro h
    have := hin h
    rw [SValue.inputsAtMost] at this
    exact ⟨by simpa using this.1, this.2⟩
  | execution a =>
    rw [byNameValue]
    cases h : e.apps a with
    | none => exact Avoids.stuck
    | some x => exact avoids_run hr _ _ (he.apps a x.1 x.2 h)
termination_by sizeOf v

theorem byNameList_avoids {r : Reason} (hr : r ≠ .module) (all : List (Module W σ)) (input : List (Val W))
    (src : List Instr) (e : Env W σ (EM σ (Val W))) (he : EnvAvoids r e)
    (hin : InputsFine r input e.nInputs src) :
    Avoids r (byNameList all input src e) (fun _ => True) := by
  cases src with
  | nil => rw [byNameList]; exact Avoids.pure trivial
  | cons i is =>
    rw [byNameList]
    have hval : ∀ n v, i = .assignment n v → Avoids r (byNameValue all input v e) (fun _ => True) := by
      intro n v hi
      refine byNameValue_avoids hr all input v e he ?_
      intro h
      have := (hin h).2
      rw [hi, nestedInputsAtMost, Instr.inputsAtMost] at this
      exact this.1
    refine Avoids.bind (P := fun e' => EnvAvoids r e' ∧ InputsFine r input e'.nInputs is) ?_
      (fun e' h => byNameList_avoids hr all input is e' h.1 h.2)
    have hin' : (∀ n, i ≠ .parameter n true) → InputsFine r input e.nInputs is := by
      intro hne h
      obtain ⟨h1, h2⟩ := hin h
      rw [nestedInputsAtMost] at h2
      refine ⟨?_, h2.2⟩
      have : inputParameters is ≤ inputParameters (i :: is) := by
        unfold inputParameters
        exact ((List.sublist_cons_self i is).filter _).length_le
      omega
    cases i with
    | module index name =>
      rw [byNameInstr]
      cases lastModule all index with
      | none => exact Avoids.stuck
      | some m => exact Avoids.pure ⟨⟨he.apps, he.inputs, he.vars⟩, hin' (by simp)⟩
    | application module name =>
      rw [byNameInstr]
      cases e.modules module with
      | none => exact Avoids.stuck
      | some m =>
        refine Avoids.pure ⟨⟨?_, he.inputs, he.vars⟩, hin' (by simp)⟩
        intro n m' atts h a ha
        simp only [setAt] at h
        split at h
        · cases h; simp at ha
        · exact he.apps n m' atts h a ha
    | parameter name isInput =>
      cases isInput with
      | true =>
        rw [byNameInstr]
        have hcount : inputParameters (.parameter name true :: is) = inputParameters is + 1 := by
          simp [inputParameters]
        refine Avoids.pure ⟨⟨he.apps, ?_, he.vars⟩, ?_⟩
        · intro n m h
          simp only [setAt] at h
          split at h
          · cases h
            refine avoids_inputAt hr input _ ?_
            intro h
            have := (hin h).1
            rw [hcount] at this
            omega
          · exact he.inputs n m h
        · intro h
          obtain ⟨h1, h2⟩ := hin h
          rw [nestedInputsAtMost] at h2
          rw [hcount] at h1
          exact ⟨by simp only; omega, h2.2⟩
      | false =>
        rw [byNameInstr]
        exact Avoids.pure ⟨⟨he.apps, he.inputs, he.vars⟩, hin' (by simp)⟩
    | assignment name v =>
      rw [byNameInstr]
      refine Avoids.bind (hval name v rfl) (fun x _ => Avoids.pure ⟨⟨he.apps, he.inputs, ?_⟩, hin' (by simp)⟩)
      intro n m h
      simp only [setAt] at h
      split at h
      · cases h; exact hval name v rfl
      · exact he.vars n m h
    | attachment c t a =>
      rw [byNameInstr]
      cases hx : (e.vars c <|> e.inputs c) with
      | none => exact Avoids.stuck
      | some x =>
        cases ha : e.apps a with
        | none => exact Avoids.stuck
        | some ap =>
          refine Avoids.pure ⟨⟨?_, he.inputs, he.vars⟩, hin' (by simp)⟩
          have hxa : Avoids r x (fun _ => True) := by
            cases hv : e.vars c with
            | some y => rw [hv] at hx; cases hx; exact he.vars c _ hv
            | none => rw [hv] at hx; exact he.inputs c x hx
          intro n m' atts h b hb
          simp only [setAt] at h
          split at h
          · cases h
            rcases List.mem_append.mp hb with hb | hb
            · exact he.apps a ap.1 ap.2 ha b hb
            · rw [List.mem_singleton] at hb
              subst hb
              exact hxa
          · exact he.apps n m' atts h b hb
    | execution a =>
      rw [byNameInstr]
      cases ha : e.apps a with
      | none => exact Avoids.stuck
      | some ap =>
        exact Avoids.bind (avoids_run hr _ _ (he.apps a ap.1 ap.2 ha))
          (fun _ _ => Avoids.pure ⟨he, hin' (by simp)⟩)
termination_by sizeOf src
decreasing_by
  all_goals subst_vars; simp only [List.cons.sizeOf_spec, Instr.assignment.sizeOf_spec]; omega
end

/-! ## Number of outputs -/

theorem bind_ok {α β : Type} {m : EM σ α} {f : α → EM σ β} {s s' : σ} {b : β}
    (h : (m >>= f) s = (.ok b, s')) : ∃ a s1, m s = (.ok a, s1) ∧ f a s1 = (.ok b, s') := by
  rw [bind_run] at h
  rcases hm : m s with ⟨o, s1⟩
  rw [hm] at h
  cases o with
  | ok a => exact ⟨a, s1, rfl, h⟩
  | fail r => cases h
  | panic => cases h

theorem byNameList_outs (all : List (Module W σ)) (input : List (Val W)) (src : List Instr)
    (e e' : Env W σ (EM σ (Val W))) (names : List String) (hn : ∀ n, e.outNames n = decide (n ∈ names))
    (s s' : σ) (h : byNameList all input src e s = (.ok e', s')) :
    e'.outs.length = e.outs.length + outputAssignments names src := by
  induction src generalizing e names s with
  | nil => rw [byNameList] at h; cases h; rw [outputAssignments]; omega
  | cons i is ih =>
    rw [byNameList] at h
    obtain ⟨e1, s1, h1, h2⟩ := bind_ok h
    cases i with
    | module index name =>
      rw [byNameInstr] at h1
      cases hf : lastModule all index with
      | none => rw [hf] at h1; cases h1
      | some m =>
        rw [hf] at h1; cases h1
        have := ih _ names (by exact hn) _ h2
        rw [outputAssignments]
        · exact this
        all_goals simp
    | application module name =>
      rw [byNameInstr] at h1
      cases hf : e.modules module with
      | none => rw [hf] at h1; cases h1
      | some m =>
        rw [hf] at h1; cases h1
        have := ih _ names (by exact hn) _ h2
        rw [outputAssignments]
        · exact this
        all_goals simp
    | parameter name isInput =>
      cases isInput with
      | true =>
        rw [byNameInstr] at h1; cases h1
        have := ih _ names (by exact hn) _ h2
        rw [outputAssignments]
        · exact this
        all_goals simp
      | false =>
        rw [byNameInstr] at h1; cases h1
        rw [outputAssignments]
        refine ih { e with outNames := fun x => x == name || e.outNames x } (name :: names) ?_ _ h2
        intro n
        simp only [hn]
        by_cases h : n = name <;> simp [h]
    | assignment name v =>
      rw [byNameInstr] at h1
      obtain ⟨x, s2, h3, h4⟩ := bind_ok h1
      cases h4
      have := ih _ names (by exact hn) _ h2
      rw [outputAssignments, this]
      simp only [hn, decide_eq_true_eq]
      by_cases hm : name ∈ names <;> simp [hm] <;> omega
    | attachment c t a =>
      rw [byNameInstr] at h1
      cases hx : (e.vars c <|> e.inputs c) with
      | none => rw [hx] at h1; cases h1
      | some x =>
        cases ha : e.apps a with
        | none => rw [hx, ha] at h1; cases h1
        | some ap =>
          rw [hx, ha] at h1; cases h1
          have := ih _ names (by exact hn) _ h2
          rw [outputAssignments]
          · exact this
          all_goals simp
    | execution a =>
      rw [byNameInstr] at h1
      cases ha : e.apps a with
      | none => rw [ha] at h1; cases h1
      | some ap =>
        rw [ha] at h1
        obtain ⟨x, s2, h3, h4⟩ := bind_ok h1
        cases h4
        have := ih _ names (by exact hn) _ h2
        rw [outputAssignments]
        · exact this
        all_goals simp

end Rodkina.Interp
