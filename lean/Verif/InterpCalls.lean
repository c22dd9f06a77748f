import Verif.InterpSem

/-!
# Which modules are called
-/

namespace Rodkina.Interp

variable {W σ : Type}

/-- A successful run logs at least `l`, in order, and exactly `l` if `strict`. -/
def Logs {α : Type} (strict : Bool) (m : EM (σ × List Nat) α) (l : List Nat) (Q : α → Prop) : Prop :=
  ∀ s a s', m s = (.ok a, s') → Q a ∧ ∃ l', s'.2 = s.2 ++ l' ∧ l.Sublist l' ∧ (strict = true → l' = l)

theorem Logs.pure {α : Type} {strict : Bool} {a : α} {Q : α → Prop} (h : Q a) :
    Logs strict (pure a : EM (σ × List Nat) α) [] Q := by
  intro s b s' hb
  rw [pure_run] at hb
  cases hb
  exact ⟨h, [], by simp, .slnil, fun _ => rfl⟩

theorem Logs.stuck {α : Type} {strict : Bool} {l : List Nat} {Q : α → Prop} :
    Logs strict (stuck : EM (σ × List Nat) α) l Q := by
  intro s b s' hb
  cases hb

theorem Logs.bind {α β : Type} {strict : Bool} {m : EM (σ × List Nat) α} {f : α → EM (σ × List Nat) β}
    {l1 l2 : List Nat} {P : α → Prop} {Q : β → Prop} (h : Logs strict m l1 P)
    (hf : ∀ a, P a → Logs strict (f a) l2 Q) : Logs strict (m >>= f) (l1 ++ l2) Q := by
  intro s b s' hb
  obtain ⟨a, s1, h1, h2⟩ := bind_ok hb
  obtain ⟨hp, k1, e1, sub1, st1⟩ := h s a s1 h1
  obtain ⟨hq, k2, e2, sub2, st2⟩ := hf a hp s1 b s' h2
  refine ⟨hq, k1 ++ k2, by rw [e2, e1, List.append_assoc], sub1.append sub2, fun hs => ?_⟩
  rw [st1 hs, st2 hs]

theorem Logs.loose {α : Type} {m : EM (σ × List Nat) α} {l : List Nat} {Q : α → Prop}
    (h : Logs false m l Q) : Logs false m [] Q := by
  intro s a s' ha
  obtain ⟨hq, k, e, _, _⟩ := h s a s' ha
  exact ⟨hq, k, e, List.nil_sublist k, fun h => by cases h⟩

theorem logs_callModule (strict : Bool) (m : Module W σ) (ps : Params W) :
    Logs strict (callModule m.logged ps) [m.index] (fun _ => True) := by
  intro s a s' h
  unfold callModule Module.logged at h
  rcases hm : m.fn ps s.1 with ⟨o, s1⟩
  simp only [hm] at h
  cases o with
  | ok v => cases h; exact ⟨trivial, [m.index], rfl, .refl _, fun _ => rfl⟩
  | err => cases h
  | panic => cases h

theorem logs_inputAt (strict : Bool) (input : List (Val W)) (i : Nat) :
    Logs strict (inputAt (σ := σ × List Nat) input i) [] (fun _ => True) := by
  intro s a s' h
  unfold inputAt at h
  cases hi : input[i]? with
  | none => rw [hi] at h; cases h
  | some v => rw [hi] at h; cases h; exact ⟨trivial, [], by simp, .slnil, fun _ => rfl⟩

theorem logs_runAttached (strict : Bool) (atts : List (Nat × EM (σ × List Nat) (Val W)))
    (h : ∀ a ∈ atts, Logs strict a.2 [] (fun _ => True)) (ps : Params W) :
    Logs strict (runAttached atts ps) [] (fun _ => True) := by
  induction atts generalizing ps with
  | nil => exact Logs.pure trivial
  | cons a atts ih =>
    exact Logs.bind (l1 := []) (l2 := []) (h a (List.mem_cons_self ..))
      (fun _ _ => ih (fun a ha => h a (List.mem_cons_of_mem _ ha)) _)

/-- The environment agrees with the indexes of the modules; what can be attached logs nothing. -/
structure EnvLogs (all : List (Module W σ)) (strict : Bool) (attached : String → Prop)
    (e : Env W (σ × List Nat) (EM (σ × List Nat) (Val W))) (mods apps : String → Option Nat) : Prop where
  modules : ∀ n m, e.modules n = some m → mods n = some m.index ∧ ∃ m' : Module W σ, m = m'.logged
  apps : ∀ n m atts, e.apps n = some (m, atts) → apps n = some m.index ∧
    (∃ m' : Module W σ, m = m'.logged) ∧ ∀ a ∈ atts, Logs strict a.2 [] (fun _ => True)
  inputs : ∀ n m, e.inputs n = some m → Logs strict m [] (fun _ => True)
  vars : ∀ n m, e.vars n = some m → (strict = true → attached n) → Logs strict m [] (fun _ => True)

theorem logs_app {all : List (Module W σ)} {strict : Bool} {attached : String → Prop}
    {e : Env W (σ × List Nat) (EM (σ × List Nat) (Val W))} {mods apps : String → Option Nat}
    (he : EnvLogs all strict attached e mods apps) {a : String} {m : Module W (σ × List Nat)}
    {atts : List (Nat × EM (σ × List Nat) (Val W))} (ha : e.apps a = some (m, atts)) :
    Logs strict (runAttached atts (fun _ => none) >>= fun ps => callModule m ps) (apps a).toList
      (fun _ => True) := by
  obtain ⟨h1, ⟨m', rfl⟩, h3⟩ := he.apps a m atts ha
  rw [h1]
  exact Logs.bind (l1 := []) (logs_runAttached strict atts h3 _) (fun ps _ => logs_callModule strict m' ps)

theorem fetch_logged {all : List (Module W σ)} {i : Nat} {m : Module W (σ × List Nat)}
    (h : lastModule (all.map Module.logged) i = some m) : m.index = i ∧ ∃ m' : Module W σ, m = m'.logged := by
  obtain ⟨h2, h1⟩ := lastModule_some h
  obtain ⟨m', _, rfl⟩ := List.mem_map.mp h2
  exact ⟨h1, m', rfl⟩

mutual
theorem logsValue (all : List (Module W σ)) (strict : Bool) (input : List (Val W)) (v : SValue)
    (attached : String → Prop) (e : Env W (σ × List Nat) (EM (σ × List Nat) (Val W)))
    (mods apps : String → Option Nat) (he : EnvLogs all strict attached e mods apps)
    (hp : strict = true → v.PlainAttached) :
    Logs strict (byNameValue (all.map Module.logged) input v e) (v.calls apps) (fun _ => True) := by
  cases v with
  | var x =>
    rw [byNameValue, SValue.calls]
    · cases h : e.inputs x with
      | none => exact Logs.stuck
      | some m => exact he.inputs x m h
    all_goals simp
  | constant b =>
    rw [byNameValue, SValue.calls]
    · exact Logs.pure trivial
    all_goals simp
  | instructions l =>
    rw [byNameValue, SValue.calls]
    have hl : Logs strict (byNameList (all.map Module.logged) input l {})
        (callsOf (fun _ => none) (fun _ => none) l) (fun _ => True) := by
      refine logsList all strict input l (fun c => ∃ t a, .attachment c t a ∈ l) {} _ _
        ⟨by simp, by simp, by simp, by simp⟩ (fun c t a hc => ⟨t, a, hc⟩) ?_ ?_
      · rintro hs c v ⟨t, a, hc⟩ hv
        have := hp hs
        rw [SValue.PlainAttached] at this
        exact this.1 c t a v hc hv
      · intro hs
        have := hp hs
        rw [SValue.PlainAttached] at this
        exact this.2
    have := Logs.bind (l2 := []) (Q := fun _ => True) hl
      (fun e' _ => Logs.pure (a := (Val.list e'.outs : Val W)) trivial)
    rwa [List.append_nil] at this
  | execution a =>
    rw [byNameValue, SValue.calls]
    cases h : e.apps a with
    | none => exact Logs.stuck
    | some x => exact logs_app he h
termination_by sizeOf v

theorem logsList (all : List (Module W σ)) (strict : Bool) (input : List (Val W)) (src : List Instr)
    (attached : String → Prop) (e : Env W (σ × List Nat) (EM (σ × List Nat) (Val W)))
    (mods apps : String → Option Nat) (he : EnvLogs all strict attached e mods apps)
    (hatt : ∀ c t a, .attachment c t a ∈ src → attached c)
    (hplain : strict = true → ∀ c v, attached c → .assignment c v ∈ src → v.plain)
    (hp : strict = true → nestedPlainAttached src) :
    Logs strict (byNameList (all.map Module.logged) input src e) (callsOf mods apps src) (fun _ => True) := by
  cases src with
  | nil => rw [byNameList, callsOf]; exact Logs.pure trivial
  | cons i is =>
    rw [byNameList]
    have hatt' : ∀ c t a, .attachment c t a ∈ is → attached c :=
      fun c t a h => hatt c t a (List.mem_cons_of_mem _ h)
    have hplain' : strict = true → ∀ c v, attached c → .assignment c v ∈ is → v.plain :=
      fun hs c v h1 h2 => hplain hs c v h1 (List.mem_cons_of_mem _ h2)
    have hp' : strict = true → nestedPlainAttached is := by
      intro hs
      have := hp hs
      rw [nestedPlainAttached] at this
      exact this.2
    have rest : ∀ (l : List Nat) (mods' apps' : String → Option Nat),
        Logs strict (byNameInstr (all.map Module.logged) input i e) l
          (fun e' => EnvLogs all strict attached e' mods' apps') →
        callsOf mods apps (i :: is) = l ++ callsOf mods' apps' is →
        Logs strict (byNameInstr (all.map Module.logged) input i e >>= fun e' =>
          byNameList (all.map Module.logged) input is e') (callsOf mods apps (i :: is)) (fun _ => True) := by
      intro l mods' apps' h1 h2
      rw [h2]
      exact Logs.bind h1 (fun e' he' => logsList all strict input is attached e' mods' apps' he' hatt' hplain' hp')
    cases i with
    | module index name =>
      refine rest [] (setAt mods name index) apps ?_ (by rw [callsOf]; rfl)
      rw [byNameInstr]
      cases hf : lastModule (all.map Module.logged) index with
      | none => exact Logs.stuck
      | some m =>
        refine Logs.pure { he with modules := ?_ }
        intro n m' hm
        simp only [setAt] at hm ⊢
        split at hm
        · next hn =>
          cases hm
          obtain ⟨h1, h2⟩ := fetch_logged hf
          exact ⟨by rw [if_pos hn, h1], h2⟩
        · next hn => rw [if_neg hn]; exact he.modules n m' hm
    | application module name =>
      refine rest [] mods (fun x => if x = name then mods module else apps x) ?_ (by rw [callsOf]; rfl)
      rw [byNameInstr]
      cases hm : e.modules module with
      | none => exact Logs.stuck
      | some m =>
        obtain ⟨h1, h2⟩ := he.modules module m hm
        refine Logs.pure { he with apps := ?_ }
        intro n m' atts ha
        simp only [setAt] at ha ⊢
        split at ha
        · next hn => cases ha; exact ⟨by rw [if_pos hn, h1], h2, by simp⟩
        · next hn => rw [if_neg hn]; exact he.apps n m' atts ha
    | parameter name isInput =>
      refine rest [] mods apps ?_ (by rw [callsOf]; rfl; all_goals simp)
      cases isInput with
      | true =>
        rw [byNameInstr]
        refine Logs.pure { he with inputs := ?_ }
        intro n m h
        simp only [setAt] at h
        split at h
        · cases h; exact logs_inputAt strict input _
        · exact he.inputs n m h
      | false => rw [byNameInstr]; exact Logs.pure { he with }
    | assignment name v =>
      refine rest (v.calls apps ++ []) mods apps ?_ (by rw [callsOf, List.append_nil])
      have hv : Logs strict (byNameValue (all.map Module.logged) input v e) (v.calls apps) (fun _ => True) := by
        refine logsValue all strict input v attached e mods apps he ?_
        intro hs
        have := hp hs
        rw [nestedPlainAttached, Instr.PlainAttached] at this
        exact this.1
      rw [byNameInstr]
      refine Logs.bind hv (fun x _ => Logs.pure { he with vars := ?_ })
      intro n m h hn
      simp only [setAt] at h
      split at h
      · next hnn =>
        cases h
        cases strict with
        | false => exact hv.loose
        | true =>
          have hpl := hplain rfl name v (hnn ▸ hn rfl) (List.mem_cons_self ..)
          cases v with
          | var x => exact (by rwa [SValue.calls] at hv; all_goals simp)
          | constant b => exact (by rwa [SValue.calls] at hv; all_goals simp)
          | instructions l => exact hpl.elim
          | execution a => exact hpl.elim
      · exact he.vars n m h hn
    | attachment c t a =>
      refine rest [] mods apps ?_ (by rw [callsOf]; rfl; all_goals simp)
      rw [byNameInstr]
      cases hx : (e.vars c <|> e.inputs c) with
      | none => exact Logs.stuck
      | some x =>
        cases ha : e.apps a with
        | none => exact Logs.stuck
        | some ap =>
          have hxa : Logs strict x [] (fun _ => True) := by
            cases hv : e.vars c with
            | some y =>
              rw [hv] at hx
              cases hx
              exact he.vars c _ hv (fun _ => hatt c t a (List.mem_cons_self ..))
            | none => rw [hv] at hx; exact he.inputs c x hx
          obtain ⟨m, atts⟩ := ap
          obtain ⟨h1, h2, h3⟩ := he.apps a m atts ha
          refine Logs.pure { he with apps := ?_ }
          intro n m' atts' h
          simp only [setAt] at h
          split at h
          · next hn =>
            cases h
            refine ⟨hn ▸ h1, h2, ?_⟩
            intro b hb
            rcases List.mem_append.mp hb with hb | hb
            · exact h3 b hb
            · rw [List.mem_singleton] at hb
              subst hb
              exact hxa
          · exact he.apps n m' atts' h
    | execution a =>
      refine rest ((apps a).toList ++ []) mods apps ?_ (by rw [callsOf, List.append_nil])
      rw [byNameInstr]
      cases ha : e.apps a with
      | none => exact Logs.stuck
      | some ap => exact Logs.bind (logs_app he ha) (fun _ _ => Logs.pure he)
termination_by sizeOf src
decreasing_by
  all_goals subst_vars; simp only [List.cons.sizeOf_spec, Instr.assignment.sizeOf_spec]; omega
end

theorem byName_logs (all : List (Module W σ)) (strict : Bool) (input : List (Val W)) (src : List Instr)
    (hp : strict = true → PlainAttached src) :
    Logs strict (byName (all.map Module.logged) input src) (calls src) (fun _ => True) := by
  have h := logsList all strict input src (fun c => ∃ t a, .attachment c t a ∈ src) {} (fun _ => none)
    (fun _ => none) ⟨by simp, by simp, by simp, by simp⟩ (fun c t a hc => ⟨t, a, hc⟩)
    (by rintro hs c v ⟨t, a, hc⟩ hv; exact (hp hs).1 c t a v hc hv) (fun hs => (hp hs).2)
  have := Logs.bind (l2 := []) (Q := fun _ => True) h
    (fun e' _ => Logs.pure (a := e'.outs) trivial)
  rwa [List.append_nil] at this

end Rodkina.Interp
