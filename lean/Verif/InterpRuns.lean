import Verif.InterpCalls

/-!
# Which modules are called, exactly
-/

namespace Rodkina.Interp

variable {W σ : Type}

/-- A successful run logs exactly `l`. -/
abbrev Exactly {α : Type} (m : EM (σ × List Nat) α) (l : List Nat) (Q : α → Prop) : Prop := Logs true m l Q

/-- The environment agrees with what is known about it. -/
structure EnvRuns (e : Env W (σ × List Nat) (EM (σ × List Nat) (Val W))) (mods : String → Option Nat)
    (apps : String → Option (Nat × List Nat)) (vars : String → List Nat) : Prop where
  modules : ∀ n m, e.modules n = some m → mods n = some m.index ∧ ∃ m' : Module W σ, m = m'.logged
  apps : ∀ n m atts, e.apps n = some (m, atts) → (∃ m' : Module W σ, m = m'.logged) ∧
    ∃ k, apps n = some (m.index, k) ∧ ∀ ps, Exactly (runAttached atts ps) k (fun _ => True)
  inputs : ∀ n m, e.inputs n = some m → Exactly m [] (fun _ => True)
  unassigned : ∀ n, e.vars n = none → vars n = []
  vars : ∀ n m, e.vars n = some m → Exactly m (vars n) (fun _ => True)

theorem runs_app {e : Env W (σ × List Nat) (EM (σ × List Nat) (Val W))} {mods : String → Option Nat}
    {apps : String → Option (Nat × List Nat)} {vars : String → List Nat} (he : EnvRuns e mods apps vars) {a : String}
    {m : Module W (σ × List Nat)} {atts : List (Nat × EM (σ × List Nat) (Val W))} (ha : e.apps a = some (m, atts)) :
    Exactly (runAttached atts (fun _ => none) >>= fun ps => callModule m ps)
      (match apps a with
        | some (i, attached) => attached ++ [i]
        | none => []) (fun _ => True) := by
  obtain ⟨⟨m', rfl⟩, k, h2, h3⟩ := he.apps a m atts ha
  rw [h2]
  exact Logs.bind (h3 _) (fun ps _ => logs_callModule true m' ps)

theorem runAttached_snoc (atts : List (Nat × EM σ (Val W))) (t : Nat) (m : EM σ (Val W)) (ps : Params W) :
    runAttached (atts ++ [(t, m)]) ps = runAttached atts ps >>= fun ps' => m >>= fun x => pure (ps'.set t x) := by
  induction atts generalizing ps with
  | nil =>
    rw [List.nil_append]
    show (m >>= fun x => runAttached [] (ps.set t x)) = pure ps >>= fun ps' => m >>= fun x => pure (ps'.set t x)
    rw [pure_bind]
    rfl
  | cons a atts ih =>
    obtain ⟨t', m'⟩ := a
    show (m' >>= fun x => runAttached (atts ++ [(t, m)]) (ps.set t' x)) =
      (m' >>= fun x => runAttached atts (ps.set t' x)) >>= fun ps' => m >>= fun x => pure (ps'.set t x)
    rw [bind_assoc]
    congr 1
    funext x
    exact ih _

mutual
theorem runsValue (all : List (Module W σ)) (input : List (Val W)) (v : SValue)
    (e : Env W (σ × List Nat) (EM (σ × List Nat) (Val W))) (mods : String → Option Nat) (apps : String → Option (Nat × List Nat))
    (vars : String → List Nat) (he : EnvRuns e mods apps vars) :
    Exactly (byNameValue (all.map Module.logged) input v e) (v.runs apps) (fun _ => True) := by
  cases v with
  | var x =>
    rw [byNameValue, SValue.runs]
    · cases h : e.inputs x with
      | none => exact Logs.stuck
      | some m => exact he.inputs x m h
    all_goals simp
  | constant b =>
    rw [byNameValue, SValue.runs]
    · exact Logs.pure trivial
    all_goals simp
  | instructions l =>
    rw [byNameValue, SValue.runs]
    have hl : Exactly (byNameList (all.map Module.logged) input l {})
        (runsOf (fun _ => none) (fun _ => none) (fun _ => []) l) (fun _ => True) :=
      runsList all input l {} _ _ _ ⟨by simp, by simp, by simp, by simp, by simp⟩
    have := Logs.bind (l2 := []) (Q := fun _ => True) hl
      (fun e' _ => Logs.pure (a := (Val.list e'.outs : Val W)) trivial)
    rwa [List.append_nil] at this
  | execution a =>
    rw [byNameValue, SValue.runs]
    cases h : e.apps a with
    | none => exact Logs.stuck
    | some x => exact runs_app he h
termination_by sizeOf v

theorem runsList (all : List (Module W σ)) (input : List (Val W)) (src : List Instr)
    (e : Env W (σ × List Nat) (EM (σ × List Nat) (Val W))) (mods : String → Option Nat) (apps : String → Option (Nat × List Nat))
    (vars : String → List Nat) (he : EnvRuns e mods apps vars) :
    Exactly (byNameList (all.map Module.logged) input src e) (runsOf mods apps vars src) (fun _ => True) := by
  cases src with
  | nil => rw [byNameList, runsOf]; exact Logs.pure trivial
  | cons i is =>
    rw [byNameList]
    have rest : ∀ (l : List Nat) (mods' : String → Option Nat) (apps' : String → Option (Nat × List Nat)) (vars' : String → List Nat),
        Exactly (byNameInstr (all.map Module.logged) input i e) l (fun e' => EnvRuns e' mods' apps' vars') →
        runsOf mods apps vars (i :: is) = l ++ runsOf mods' apps' vars' is →
        Exactly (byNameInstr (all.map Module.logged) input i e >>= fun e' =>
          byNameList (all.map Module.logged) input is e') (runsOf mods apps vars (i :: is)) (fun _ => True) := by
      intro l mods' apps' vars' h1 h2
      rw [h2]
      exact Logs.bind h1 (fun e' he' => runsList all input is e' mods' apps' vars' he')
    cases i with
    | module index name =>
      refine rest [] (setAt mods name index) apps vars ?_ (by rw [runsOf]; rfl)
      rw [byNameInstr]
      cases hf : lastModule (all.map Module.logged) index with
      | none => exact Logs.stuck
      | some m =>
        refine Logs.pure { he with modules := ?_ }
        intro n m' hm
        simp only [setAt] at hm ⊢
        split at hm
        · next hn =>
          cases hm
          obtain ⟨h1, h2⟩ := fetch_logged hf
          exact ⟨by rw [if_pos hn, h1], h2⟩
        · next hn => rw [if_neg hn]; exact he.modules n m' hm
    | application module name =>
      refine rest [] mods (fun x => if x = name then (mods module).map (fun i => (i, [])) else apps x) vars ?_ (by rw [runsOf]; rfl)
      rw [byNameInstr]
      cases hm : e.modules module with
      | none => exact Logs.stuck
      | some m =>
        obtain ⟨h1, h2⟩ := he.modules module m hm
        refine Logs.pure { he with apps := ?_ }
        intro n m' atts ha
        simp only [setAt] at ha ⊢
        split at ha
        · next hn =>
          cases ha
          exact ⟨h2, [], by rw [if_pos hn, h1]; rfl, fun ps => Logs.pure trivial⟩
        · next hn => rw [if_neg hn]; exact he.apps n m' atts ha
    | parameter name isInput =>
      refine rest [] mods apps vars ?_ (by rw [runsOf]; rfl; all_goals simp)
      cases isInput with
      | true =>
        rw [byNameInstr]
        refine Logs.pure { he with inputs := ?_ }
        intro n m h
        simp only [setAt] at h
        split at h
        · cases h; exact logs_inputAt true input _
        · exact he.inputs n m h
      | false => rw [byNameInstr]; exact Logs.pure { he with }
    | assignment name v =>
      refine rest (v.runs apps ++ []) mods apps (fun x => if x = name then v.runs apps else vars x) ?_ (by rw [runsOf, List.append_nil])
      have hv := runsValue all input v e mods apps vars he
      rw [byNameInstr]
      refine Logs.bind hv (fun x _ => Logs.pure { he with vars := ?_, unassigned := ?_ })
      · intro n h
        simp only [setAt] at h
        split at h
        · cases h
        · next hn => rw [if_neg hn]; exact he.unassigned n h
      · intro n m h
        simp only [setAt] at h
        split at h
        · next hn => cases h; rw [if_pos hn]; exact hv
        · next hn => rw [if_neg hn]; exact he.vars n m h
    | attachment c t a =>
      refine rest [] mods (fun x => if x = a then (apps a).map (fun p => (p.1, p.2 ++ vars c)) else apps x) vars ?_ (by rw [runsOf]; rfl)
      rw [byNameInstr]
      cases hx : (e.vars c <|> e.inputs c) with
      | none => exact Logs.stuck
      | some x =>
        cases ha : e.apps a with
        | none => exact Logs.stuck
        | some ap =>
          have hxa : Exactly x (vars c) (fun _ => True) := by
            cases hv : e.vars c with
            | some y =>
              rw [hv] at hx
              cases hx
              exact he.vars c _ hv
            | none => rw [hv] at hx; rw [he.unassigned c hv]; exact he.inputs c x hx
          obtain ⟨m, atts⟩ := ap
          obtain ⟨h1, k, h2, h3⟩ := he.apps a m atts ha
          refine Logs.pure { he with apps := ?_ }
          intro n m' atts' h
          simp only [setAt] at h
          split at h
          · next hn =>
            cases h
            refine ⟨h1, k ++ vars c, by rw [if_pos hn, h2]; rfl, fun ps => ?_⟩
            rw [runAttached_snoc]
            refine Logs.bind (h3 ps) (fun ps' _ => ?_)
            have := Logs.bind (l2 := []) (Q := fun _ => True) hxa (fun x _ => Logs.pure (a := ps'.set t x) trivial)
            rwa [List.append_nil] at this
          · next hn => rw [if_neg hn]; exact he.apps n m' atts' h
    | execution a =>
      refine rest ((match apps a with
        | some (i, attached) => attached ++ [i]
        | none => []) ++ []) mods apps vars ?_ (by rw [runsOf, List.append_nil]; rfl)
      rw [byNameInstr]
      cases ha : e.apps a with
      | none => exact Logs.stuck
      | some ap => exact Logs.bind (runs_app he ha) (fun _ _ => Logs.pure he)
termination_by sizeOf src
decreasing_by
  all_goals subst_vars; simp only [List.cons.sizeOf_spec, Instr.assignment.sizeOf_spec]; omega
end

theorem byName_runs (all : List (Module W σ)) (input : List (Val W)) (src : List Instr) :
    Exactly (byName (all.map Module.logged) input src) (runs src) (fun _ => True) := by
  have h := runsList all input src {} (fun _ => none) (fun _ => none) (fun _ => []) ⟨by simp, by simp, by simp, by simp, by simp⟩
  have := Logs.bind (l2 := []) (Q := fun _ => True) h (fun e' _ => Logs.pure (a := e'.outs) trivial)
  rwa [List.append_nil] at this

end Rodkina.Interp
