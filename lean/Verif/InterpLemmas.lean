import Verif.InterpSpec

/-!
# Lemmas about the interpreter
-/

namespace Rodkina.Interp

variable {W σ : Type}

/-! ## The monad -/

theorem pure_run {α : Type} (a : α) (s : σ) : (pure a : EM σ α) s = (.ok a, s) := rfl

theorem bind_run {α β : Type} (m : EM σ α) (f : α → EM σ β) (s : σ) :
    (m >>= f) s = match m s with
      | (.ok a, s') => f a s'
      | (.fail r, s') => (.fail r, s')
      | (.panic, s') => (.panic, s') := rfl

instance : LawfulMonad (EM σ) := LawfulMonad.mk'
  (id_map := by
    intro α m; funext s
    show (m >>= fun a => pure a) s = m s
    rw [bind_run]
    rcases m s with ⟨_ | _ | _, s'⟩ <;> rfl)
  (pure_bind := by intros; rfl)
  (bind_assoc := by
    intro α β γ m f g; funext s
    simp only [bind_run]
    rcases m s with ⟨_ | _ | _, s'⟩ <;> rfl)

/-! ## Maps -/

/-- The model's lookup is that of the specification. -/
theorem fetchModule_eq (all : List (Module W σ)) (i : Nat) : fetchModule all i = lastModule all i := by
  unfold fetchModule
  induction all with
  | nil => rfl
  | cons m ms ih =>
    rw [List.reverse_cons, List.find?_append, ih, lastModule]
    cases lastModule ms i with
    | some m' => rfl
    | none =>
      by_cases h : m.index = i <;> simp [h]

theorem lastModule_some {all : List (Module W σ)} {i : Nat} {m : Module W σ} (h : lastModule all i = some m) :
    m ∈ all ∧ m.index = i := by
  induction all with
  | nil => cases h
  | cons m' ms ih =>
    rw [lastModule] at h
    split at h
    · next m'' hm =>
      cases h
      exact ⟨List.mem_cons_of_mem _ (ih hm).1, (ih hm).2⟩
    · split at h
      · cases h
        exact ⟨by simp, by assumption⟩
      · cases h

theorem lookup_upd {β : Type} (m : List (String × β)) (k : String) (v : β) (x : String) :
    (upd m k v).lookup x = if x = k then some v else m.lookup x := by
  unfold upd
  rw [List.lookup_cons]
  by_cases h : x = k
  · simp [h]
  · have hb : (x == k) = false := by simpa using h
    rw [hb, if_neg h]
    simp only
    induction m with
    | nil => rfl
    | cons e m ih =>
      rcases e with ⟨k', v'⟩
      by_cases hk : k' = k
      · subst hk
        rw [List.filter_cons_of_neg (by simp), List.lookup_cons, hb]
        exact ih
      · rw [List.filter_cons_of_pos (by simpa using hk), List.lookup_cons, List.lookup_cons, ih]

theorem filter_lookup_none {β : Type} (m : List (String × β)) (k : String) (h : m.lookup k = none) :
    m.filter (fun e => e.1 != k) = m := by
  induction m with
  | nil => rfl
  | cons e m ih =>
    rcases e with ⟨k', v'⟩
    rw [List.lookup_cons] at h
    by_cases hk : k == k'
    · simp [hk] at h
    · simp only [Bool.not_eq_true] at hk
      rw [hk] at h
      have : k' ≠ k := by intro e; subst e; simp at hk
      rw [List.filter_cons_of_pos (by simpa using this), ih h]

theorem mem_of_lookup {β : Type} {values : List (Nat × β)} {o : Nat} {y : β}
    (h : values.lookup o = some y) : (o, y) ∈ values := by
  induction values with
  | nil => simp at h
  | cons a values ih =>
    rcases a with ⟨a, b⟩
    rw [List.lookup_cons] at h
    by_cases hab : o == a
    · rw [hab] at h; simp at h; simp at hab; simp [hab, h]
    · simp only [Bool.not_eq_true] at hab
      rw [hab] at h
      exact List.mem_cons_of_mem _ (ih h)

/-! ## By name -/

/-- What compiled attachments stand for. -/
def attached (input : List (Val W)) (atts : List (Attachment W σ)) : List (Nat × EM σ (Val W)) :=
  atts.map (fun a => match a with | .mk v t => (t, execValue input v))

/-- What the state of the compiler stands for. -/
def envOf (input : List (Val W)) (cs : CState W σ) (outs : List (Val W)) : Env W σ (EM σ (Val W)) where
  modules n := cs.modules.lookup n
  apps n := match cs.applications.lookup n with
    | none => none
    | some (.mk _ m atts) => some (m, attached input atts)
  inputs n := match cs.parameters.lookup n with
    | none => none
    | some p => if p.isInput then some (inputAt input p.inputIndex) else none
  nInputs := (cs.parameters.filter (fun p => p.2.isInput)).length
  outNames n := match cs.parameters.lookup n with
    | none => false
    | some p => !p.isInput
  vars n := match cs.values.lookup n with
    | none => none
    | some v => some (execValue input v)
  outs := outs

theorem execValue_input (input : List (Val W)) (i : Nat) :
    execValue (σ := σ) input (.input i) = inputAt input i := by
  rw [execValue, inputAt]
  rfl

theorem execAttachments_eq (input : List (Val W)) (atts : List (Attachment W σ)) (ps : Params W) :
    execAttachments input atts ps = runAttached (attached input atts) ps := by
  induction atts generalizing ps with
  | nil => rw [execAttachments]; rfl
  | cons a atts ih =>
    cases a with
    | mk v t =>
      rw [execAttachments]
      show _ = (execValue input v >>= fun x => runAttached (attached input atts) (ps.set t x))
      congr 1
      funext x
      exact ih _

theorem execApp_eq (input : List (Val W)) (i : Nat) (m : Module W σ) (atts : List (Attachment W σ)) :
    execApp input (.mk i m atts) =
      runAttached (attached input atts) (fun _ => none) >>= fun ps => callModule m ps := by
  rw [execApp, execAttachments_eq]

/-- The outputs so far have been executed. -/
def Inv (cs : CState W σ) (values : List (Nat × Val W)) (outs : List (Val W)) : Prop :=
  cs.outputs.map (fun o => values.lookup o) = outs.map some ∧
  ∀ k v, (k, v) ∈ values → k < cs.instructions.length

theorem collect_eq (values : List (Nat × Val W)) (os : List Nat) (outs : List (Val W))
    (h : os.map (fun o => values.lookup o) = outs.map some) :
    collect (σ := σ) values os = pure outs := by
  induction os generalizing outs with
  | nil =>
    cases outs with
    | nil => rfl
    | cons => simp at h
  | cons o os ih =>
    cases outs with
    | nil => simp at h
    | cons x xs =>
      simp only [List.map_cons, List.cons.injEq] at h
      rw [collect, h.1]
      show (collect values os >>= fun rest => pure (x :: rest)) = _
      rw [ih xs h.2]
      rfl

/-- The first part of running instructions. -/
theorem execInstrs_append (input : List (Val W)) (l l' : List (PInstr W σ)) (k : Nat)
    (values : List (Nat × Val W)) :
    execInstrs input (l ++ l') k values =
      execInstrs input l k values >>= fun vs => execInstrs input l' (k + l.length) vs := by
  induction l generalizing k values with
  | nil => rw [execInstrs]; simp
  | cons i l ih =>
    have hk : k + (i :: l).length = k + 1 + l.length := by simp; omega
    cases i with
    | value v =>
      rw [List.cons_append, execInstrs, execInstrs, bind_assoc]
      congr 1; funext x
      rw [ih, hk]
    | execution a =>
      rw [List.cons_append, execInstrs, execInstrs, bind_assoc]
      congr 1; funext x
      rw [ih, hk]

/-- What one instruction does, compiled and by name: either nothing is run and the environment changes
alike, or one program instruction is run. -/
theorem compileInstr_eq (all : List (Module W σ)) (input : List (Val W)) (i : Instr) (cs cs' : CState W σ)
    (hv : ∀ n v, i = .assignment n v → ∀ pv, compileValue all v cs = .ok pv → ∀ outs,
      execValue input pv = byNameValue all input v (envOf input cs outs))
    (h : compileInstr all i cs = .ok cs') :
    ∃ new, cs'.instructions = cs.instructions ++ new ∧
      ∀ values outs, Inv cs values outs →
      ∀ (k : List (Nat × Val W) → EM σ (List (Val W))) (k' : Env W σ (EM σ (Val W)) → EM σ (List (Val W))),
      (∀ values' outs', Inv cs' values' outs' → k values' = k' (envOf input cs' outs')) →
      (execInstrs input new cs.instructions.length values >>= k) =
        (byNameInstr all input i (envOf input cs outs) >>= k') := by
  -- nothing is run
  have still : cs'.instructions = cs.instructions → cs'.outputs = cs.outputs →
      (∀ outs, byNameInstr all input i (envOf input cs outs) = pure (envOf input cs' outs)) →
      ∃ new, cs'.instructions = cs.instructions ++ new ∧
      ∀ values outs, Inv cs values outs →
      ∀ (k : List (Nat × Val W) → EM σ (List (Val W))) (k' : Env W σ (EM σ (Val W)) → EM σ (List (Val W))),
      (∀ values' outs', Inv cs' values' outs' → k values' = k' (envOf input cs' outs')) →
      (execInstrs input new cs.instructions.length values >>= k) =
        (byNameInstr all input i (envOf input cs outs) >>= k') := by
    intro h2 h3 h1
    refine ⟨[], by simp [h2], ?_⟩
    intro values outs hinv k k' hk
    rw [h1, execInstrs, pure_bind, pure_bind]
    exact hk _ _ ⟨by rw [h3]; exact hinv.1, by rw [h2]; exact hinv.2⟩
  cases i with
  | module index name =>
    rw [compileInstr, compileModule] at h
    rw [fetchModule_eq] at h
    cases hf : lastModule all index with
    | none => rw [hf] at h; cases h
    | some m =>
      rw [hf] at h
      cases hl : cs.modules.lookup name with
      | some _ => rw [hl] at h; cases h
      | none =>
        rw [hl] at h
        cases h
        refine still rfl rfl (fun outs => ?_)
        rw [byNameInstr, hf]
        refine congrArg pure ?_
        simp only [envOf, Env.mk.injEq, and_self, and_true]
        funext x
        rw [lookup_upd, setAt]
  | application module name =>
    rw [compileInstr, compileApplication] at h
    cases hl : cs.applications.lookup name with
    | some _ => rw [hl] at h; cases h
    | none =>
      rw [hl] at h
      cases hm : cs.modules.lookup module with
      | none => rw [hm] at h; cases h
      | some m =>
        rw [hm] at h
        cases h
        refine still rfl rfl (fun outs => ?_)
        have hm' : (envOf input cs outs).modules module = some m := hm
        rw [byNameInstr, hm']
        refine congrArg pure ?_
        simp only [envOf, Env.mk.injEq, and_self, and_true, true_and]
        funext x
        rw [lookup_upd, setAt]
        by_cases hx : x = name <;> simp [hx, attached]
  | parameter name isInput =>
    rw [compileInstr, compileParameter] at h
    cases hl : cs.parameters.lookup name with
    | some _ => rw [hl] at h; cases h
    | none =>
      rw [hl] at h
      cases h
      cases isInput with
      | true =>
        refine still rfl rfl (fun outs => ?_)
        rw [byNameInstr]
        refine congrArg pure ?_
        simp only [envOf, Env.mk.injEq, and_self, and_true, true_and]
        refine ⟨?_, ?_, ?_⟩
        · funext x
          rw [lookup_upd, setAt]
          by_cases hx : x = name <;> simp [hx]
        · rw [upd, filter_lookup_none _ _ hl]; simp
        · funext x
          rw [lookup_upd]
          by_cases hx : x = name <;> simp [hx, hl]
      | false =>
        refine still rfl rfl (fun outs => ?_)
        rw [byNameInstr]
        refine congrArg pure ?_
        simp only [envOf, Env.mk.injEq, and_self, and_true, true_and]
        refine ⟨?_, ?_, ?_⟩
        · funext x
          rw [lookup_upd]
          by_cases hx : x = name <;> simp [hx, hl]
        · rw [upd, filter_lookup_none _ _ hl]; simp
        · funext x
          rw [lookup_upd]
          by_cases hx : x = name <;> simp [hx]
  | assignment name v =>
    rw [compileInstr] at h
    cases hc : compileValue all v cs with
    | err => rw [hc] at h; cases h
    | panic => rw [hc] at h; cases h
    | ok pv =>
      rw [hc] at h
      cases h
      refine ⟨[.value pv], rfl, ?_⟩
      intro values outs hinv k k' hk
      rw [execInstrs, byNameInstr, ← hv name v rfl pv hc outs, bind_assoc, bind_assoc]
      congr 1
      funext x
      rw [execInstrs, pure_bind, pure_bind]
      have hnew : Inv (compileAssignment name pv cs) ((cs.instructions.length, x) :: values)
          (if (envOf input cs outs).outNames name then outs ++ [x] else outs) := by
        have hold : ∀ o ∈ cs.outputs, ((cs.instructions.length, x) :: values).lookup o = values.lookup o := by
          intro o ho
          rw [List.lookup_cons]
          by_cases hb : o == cs.instructions.length
          · exfalso
            have hmem : values.lookup o ∈ cs.outputs.map (fun o => values.lookup o) :=
              List.mem_map.mpr ⟨o, ho, rfl⟩
            rw [hinv.1] at hmem
            obtain ⟨y, _, hy⟩ := List.mem_map.mp hmem
            have := hinv.2 _ _ (mem_of_lookup hy.symm)
            simp at hb
            omega
          · simp only [Bool.not_eq_true] at hb
            rw [hb]
        constructor
        · have hmap : cs.outputs.map (fun o => ((cs.instructions.length, x) :: values).lookup o) =
              outs.map some := by
            rw [← hinv.1]; exact List.map_congr_left hold
          simp only [compileAssignment, envOf]
          obtain ⟨o, hp⟩ : ∃ o, cs.parameters.lookup name = o := ⟨_, rfl⟩
          simp only [hp]
          cases o with
          | none => simpa using hmap
          | some p =>
            cases hi : p.isInput with
            | true => simpa [hi] using hmap
            | false => simp [hi, hmap]
        · intro a b hab
          simp only [compileAssignment, List.length_append, List.length_cons, List.length_nil]
          rcases List.mem_cons.mp hab with he | he
          · cases he; omega
          · have := hinv.2 a b he; omega
      rw [hk _ _ hnew]
      congr 1
      have hpar : (compileAssignment name pv cs).parameters = cs.parameters := rfl
      simp only [envOf, compileAssignment, Env.mk.injEq, and_self, and_true, true_and]
      funext y
      rw [lookup_upd, setAt]
      by_cases hy : y = name
      · simp only [hy, if_true]
      · simp [hy]
  | attachment c t a =>
    rw [compileInstr, compileAttachment] at h
    cases hc : compileAttachmentValue c cs with
    | err => rw [hc] at h; cases h
    | panic => rw [hc] at h; cases h
    | ok pv =>
      rw [hc] at h
      cases ha : cs.applications.lookup a with
      | none => simp only [ha] at h; cases h
      | some ap =>
        cases ap with
        | mk idx m atts =>
          simp only [ha] at h
          cases h
          have hx : ∀ outs, ((envOf input cs outs).vars c <|> (envOf input cs outs).inputs c) =
              some (execValue input pv) := by
            intro outs
            unfold compileAttachmentValue at hc
            cases hv : cs.values.lookup c with
            | some v => rw [hv] at hc; cases hc; simp [envOf, hv]
            | none =>
              rw [hv] at hc
              cases hp : cs.parameters.lookup c with
              | none => simp only [hp] at hc; cases hc
              | some p =>
                simp only [hp] at hc
                split at hc
                · rename_i hi
                  cases hc
                  simp [envOf, hv, hp, hi, execValue_input]
                · cases hc
          refine still rfl rfl (fun outs => ?_)
          have happ : (envOf input cs outs).apps a = some (m, attached input atts) := by simp [envOf, ha]
          rw [byNameInstr, hx, happ]
          refine congrArg pure ?_
          simp only [envOf, Env.mk.injEq, and_self, and_true, true_and]
          funext x
          rw [lookup_upd, setAt]
          by_cases hx : x = a <;> simp [hx, attached]
  | execution a =>
    rw [compileInstr, compileExecution] at h
    cases ha : cs.applications.lookup a with
    | none => rw [ha] at h; cases h
    | some ap =>
      rw [ha] at h
      cases h
      cases ap with
      | mk idx m atts =>
        refine ⟨[.execution (.mk idx m atts)], rfl, ?_⟩
        intro values outs hinv k k' hk
        have happ : (envOf input cs outs).apps a = some (m, attached input atts) := by simp [envOf, ha]
        rw [execInstrs, byNameInstr, happ, execApp_eq]
        simp only [bind_assoc]
        congr 1; funext ps
        congr 1; funext x
        rw [execInstrs, pure_bind, pure_bind]
        refine hk _ _ ⟨hinv.1, ?_⟩
        intro a b hab
        have := hinv.2 a b hab
        simp only [List.length_append, List.length_cons, List.length_nil]
        omega

mutual
theorem compileValue_eq (all : List (Module W σ)) (input : List (Val W)) (v : SValue) (cs : CState W σ)
    (pv : PValue W σ) (h : compileValue all v cs = .ok pv) (outs : List (Val W)) :
    execValue input pv = byNameValue all input v (envOf input cs outs) := by
  cases v with
  | var x =>
    rw [compileValue] at h
    cases hp : cs.parameters.lookup x with
    | none => rw [hp] at h; cases h
    | some p =>
      rw [hp] at h
      simp only at h
      split at h
      · rename_i hi
        cases h
        rw [byNameValue, execValue_input]
        simp [envOf, hp, hi]
      · cases h
  | constant b => rw [compileValue] at h; cases h; rw [execValue, byNameValue]
  | instructions l =>
    rw [compileValue] at h
    cases hl : compileList all l {} with
    | err => rw [hl] at h; cases h
    | panic => rw [hl] at h; cases h
    | ok cs' =>
      rw [hl] at h
      simp only [program] at h
      split at h
      · cases h
      · cases h
      · rename_i p hp
        cases h
        split at hp
        · cases hp
        · cases hp
          obtain ⟨new, h1, h2⟩ := compileList_eq all input l {} cs' hl
          have h2 := h2 [] [] ⟨rfl, by simp⟩
          rw [execValue, byNameValue, execProgram, h1]
          simp only [List.nil_append, List.length_nil] at h2 ⊢
          have he : envOf input ({} : CState W σ) [] = {} := rfl
          rw [h2, he, bind_assoc]
          simp only [pure_bind]
  | execution a =>
    rw [compileValue] at h
    cases ha : cs.applications.lookup a with
    | none => rw [ha] at h; cases h
    | some ap =>
      rw [ha] at h
      cases h
      cases ap with
      | mk idx m atts =>
        have happ : (envOf input cs outs).apps a = some (m, attached input atts) := by simp [envOf, ha]
        rw [execValue, byNameValue, happ, execApp_eq]
termination_by sizeOf v

theorem compileList_eq (all : List (Module W σ)) (input : List (Val W)) (src : List Instr)
    (cs cs' : CState W σ) (h : compileList all src cs = .ok cs') :
    ∃ new, cs'.instructions = cs.instructions ++ new ∧ ∀ values outs, Inv cs values outs →
      (execInstrs input new cs.instructions.length values >>= fun vs => collect vs cs'.outputs) =
        (byNameList all input src (envOf input cs outs) >>= fun e => pure e.outs) := by
  cases src with
  | nil =>
    rw [compileList] at h
    cases h
    refine ⟨[], by simp, ?_⟩
    intro values outs hinv
    rw [execInstrs, byNameList, pure_bind, pure_bind, collect_eq _ _ _ hinv.1]
    rfl
  | cons i is =>
    rw [compileList] at h
    cases hi : compileInstr all i cs with
    | err => rw [hi] at h; cases h
    | panic => rw [hi] at h; cases h
    | ok cs1 =>
      rw [hi] at h
      simp only at h
      obtain ⟨new1, h1, h2⟩ := compileInstr_eq all input i cs cs1
        (fun n v he pv hpv outs => compileValue_eq all input v cs pv hpv outs) hi
      obtain ⟨new2, h3, h4⟩ := compileList_eq all input is cs1 cs' h
      refine ⟨new1 ++ new2, by rw [h3, h1, List.append_assoc], ?_⟩
      intro values outs hinv
      rw [execInstrs_append, bind_assoc, byNameList, bind_assoc]
      refine h2 values outs hinv _ _ ?_
      intro values' outs' hinv'
      rw [← h4 values' outs' hinv', h1, List.length_append]
termination_by sizeOf src
decreasing_by
  all_goals subst_vars; simp only [List.cons.sizeOf_spec, Instr.assignment.sizeOf_spec]; omega
end

end Rodkina.Interp
