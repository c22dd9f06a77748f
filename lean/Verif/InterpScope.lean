import Verif.InterpLemmas

/-!
# The compiler accepts exactly the well-scoped programs
-/

namespace Rodkina.Interp

variable {W σ : Type}

theorem compile_byName (all : List (Module W σ)) (input : List (Val W)) (src : List Instr) (p : Program W σ)
    (h : compile all src = .ok p) : execute input p = byName all input src := by
  unfold compile at h
  cases hl : compileList all src {} with
  | err => rw [hl] at h; cases h
  | panic => rw [hl] at h; cases h
  | ok cs =>
    rw [hl] at h
    simp only [program] at h
    split at h
    · cases h
    · cases h
      obtain ⟨new, h1, h2⟩ := compileList_eq all input src {} cs hl
      have h2 := h2 [] [] ⟨rfl, by simp⟩
      unfold execute byName
      rw [execProgram, h1]
      exact h2

/-- The state of the compiler after the instructions `pre`. -/
structure Rel (cs : CState W σ) (pre : List Instr) : Prop where
  modules : ∀ n, (cs.modules.lookup n).isSome ↔ ∃ i, .module i n ∈ pre
  apps : ∀ n, (cs.applications.lookup n).isSome ↔ ∃ m, .application m n ∈ pre
  params : ∀ n b, (∃ p, cs.parameters.lookup n = some p ∧ p.isInput = b) ↔ .parameter n b ∈ pre
  values : ∀ n, (cs.values.lookup n).isSome ↔ ∃ v, .assignment n v ∈ pre
  runs : cs.instructions ≠ [] ↔ ∃ i ∈ pre, i.runs

theorem rel_empty : Rel ({} : CState W σ) [] := by
  constructor <;> simp

theorem fetchModule_isSome (all : List (Module W σ)) (i : Nat) :
    (fetchModule all i).isSome ↔ ∃ m ∈ all, m.index = i := by
  unfold fetchModule
  rw [List.find?_isSome]
  simp

theorem not_isSome_iff {α : Type} {o : Option α} : ¬ o.isSome = true ↔ o = none := by
  cases o <;> simp

theorem param_fresh {cs : CState W σ} {pre : List Instr} (hr : Rel cs pre) (n : String) :
    cs.parameters.lookup n = none ↔ ∀ b, .parameter n b ∉ pre := by
  constructor
  · intro h b hb
    obtain ⟨p, hp, _⟩ := (hr.params n b).mpr hb
    rw [h] at hp; cases hp
  · intro h
    cases hp : cs.parameters.lookup n with
    | none => rfl
    | some p => exact absurd ((hr.params n p.isInput).mp ⟨p, hp, rfl⟩) (h _)

/-- Accepted exactly if `ok`, and then the result satisfies `Q`; no panic. -/
def Accepts {α : Type} (r : Res α) (ok : Prop) (Q : α → Prop) : Prop :=
  match r with
  | .ok a => ok ∧ Q a
  | .err => ¬ ok
  | .panic => False

/-- An instruction other than an assignment. -/
theorem compileInstr_scoped (all : List (Module W σ)) (i : Instr) (cs : CState W σ) (pre : List Instr)
    (hr : Rel cs pre)
    (hv : ∀ n v, i = .assignment n v →
      Accepts (compileValue all v cs) (v.Scoped (fun i => ∃ m ∈ all, m.index = i) pre) (fun _ => True)) :
    Accepts (compileInstr all i cs) (i.Scoped (fun i => ∃ m ∈ all, m.index = i) pre)
      (fun cs' => Rel cs' (pre ++ [i])) := by
  cases i with
  | module index name =>
    rw [compileInstr, compileModule, Instr.Scoped]
    have hf := fetchModule_isSome all index
    have hm := hr.modules name
    cases hfm : fetchModule all index with
    | none =>
      rw [hfm] at hf
      intro h
      simpa using hf.mpr h.1
    | some m =>
      rw [hfm] at hf
      cases hl : cs.modules.lookup name with
      | some _ =>
        rw [hl] at hm
        intro h
        obtain ⟨j, hj⟩ := hm.mp rfl
        exact h.2 j hj
      | none =>
        rw [hl] at hm
        refine ⟨⟨hf.mp rfl, fun j hj => by simpa using hm.mpr ⟨j, hj⟩⟩, ?_, ?_, ?_, ?_, ?_⟩
        · intro n
          simp only [lookup_upd]
          by_cases hn : n = name
          · simp only [hn, if_true, Option.isSome_some, true_iff]
            exact ⟨index, by simp⟩
          · rw [if_neg hn, hr.modules]
            simp [hn]
        · intro n; rw [hr.apps]; simp
        · intro n b; rw [hr.params]; simp
        · intro n; rw [hr.values]; simp
        · rw [hr.runs]; simp [Instr.runs, or_and_right, exists_or]
  | application module name =>
    rw [compileInstr, compileApplication, Instr.Scoped]
    have ha := hr.apps name
    have hm := hr.modules module
    cases hl : cs.applications.lookup name with
    | some _ =>
      rw [hl] at ha
      intro h
      obtain ⟨j, hj⟩ := ha.mp rfl
      exact h.2 j hj
    | none =>
      rw [hl] at ha
      cases hmm : cs.modules.lookup module with
      | none =>
        rw [hmm] at hm
        intro h
        simpa using hm.mpr h.1
      | some m =>
        rw [hmm] at hm
        refine ⟨⟨hm.mp rfl, fun j hj => by simpa using ha.mpr ⟨j, hj⟩⟩, ?_, ?_, ?_, ?_, ?_⟩
        · intro n; rw [hr.modules]; simp
        · intro n
          simp only [lookup_upd]
          by_cases hn : n = name
          · simp only [hn, if_true, Option.isSome_some, true_iff]
            exact ⟨module, by simp⟩
          · rw [if_neg hn, hr.apps]
            simp [hn]
        · intro n b; rw [hr.params]; simp
        · intro n; rw [hr.values]; simp
        · rw [hr.runs]; simp [Instr.runs, or_and_right, exists_or]
  | parameter name isInput =>
    rw [compileInstr, compileParameter, Instr.Scoped]
    have hp := param_fresh hr name
    cases hl : cs.parameters.lookup name with
    | some p =>
      intro h
      have := hp.mpr h
      rw [hl] at this; cases this
    | none =>
      refine ⟨hp.mp hl, ?_, ?_, ?_, ?_, ?_⟩
      · intro n; rw [hr.modules]; simp
      · intro n; rw [hr.apps]; simp
      · intro n b
        simp only [lookup_upd]
        by_cases hn : n = name
        · subst hn
          simp only [if_true, List.mem_append, List.mem_singleton, Instr.parameter.injEq, true_and,
            Option.some.injEq, exists_eq_left']
          constructor
          · intro h; exact .inr h.symm
          · rintro (h | h)
            · exact absurd h (hp.mp hl b)
            · exact h.symm
        · simp only [if_neg hn]
          rw [hr.params]
          simp [hn]
      · intro n; rw [hr.values]; simp
      · rw [hr.runs]; simp [Instr.runs, or_and_right, exists_or]
  | assignment name v =>
    rw [compileInstr, Instr.Scoped]
    have := hv name v rfl
    cases hc : compileValue all v cs with
    | err => rw [hc] at this; exact this
    | panic => rw [hc] at this; exact this
    | ok pv =>
      rw [hc] at this
      refine ⟨this.1, ?_, ?_, ?_, ?_, ?_⟩
      · intro n; rw [show (compileAssignment name pv cs).modules = cs.modules from rfl, hr.modules]; simp
      · intro n; rw [show (compileAssignment name pv cs).applications = cs.applications from rfl, hr.apps]; simp
      · intro n b; rw [show (compileAssignment name pv cs).parameters = cs.parameters from rfl, hr.params]; simp
      · intro n
        simp only [compileAssignment, lookup_upd]
        by_cases hn : n = name
        · simp only [hn, if_true, Option.isSome_some, true_iff]
          exact ⟨v, by simp⟩
        · rw [if_neg hn, hr.values]
          simp [hn]
      · simp [compileAssignment, Instr.runs]
  | attachment c t a =>
    rw [compileInstr, compileAttachment, Instr.Scoped]
    have hval : Accepts (compileAttachmentValue c cs)
        ((∃ v, .assignment c v ∈ pre) ∨ .parameter c true ∈ pre) (fun _ => True) := by
      unfold compileAttachmentValue
      have hvals := hr.values c
      cases hl : cs.values.lookup c with
      | some v => rw [hl] at hvals; exact ⟨.inl (hvals.mp rfl), trivial⟩
      | none =>
        rw [hl] at hvals
        have hpt := hr.params c true
        cases hp : cs.parameters.lookup c with
        | none =>
          rw [hp] at hpt
          rintro (h | h)
          · simpa using hvals.mpr h
          · simpa using hpt.mpr h
        | some p =>
          rw [hp] at hpt
          simp only
          split
          · rename_i hi
            exact ⟨.inr (hpt.mp ⟨p, rfl, hi⟩), trivial⟩
          · rename_i hi
            rintro (h | h)
            · simpa using hvals.mpr h
            · obtain ⟨p', hp', hi'⟩ := hpt.mpr h
              cases hp'
              exact hi hi'
    have ha := hr.apps a
    cases hc : compileAttachmentValue c cs with
    | err => rw [hc] at hval; exact fun h => hval h.1
    | panic => rw [hc] at hval; exact hval.elim
    | ok pv =>
      rw [hc] at hval
      simp only
      cases hl : cs.applications.lookup a with
      | none => rw [hl] at ha; intro h; simpa using ha.mpr h.2
      | some ap =>
        rw [hl] at ha
        cases ap with
        | mk idx m atts =>
          refine ⟨⟨hval.1, ha.mp rfl⟩, ?_, ?_, ?_, ?_, ?_⟩
          · intro n; rw [hr.modules]; simp
          · intro n
            simp only [lookup_upd]
            by_cases hn : n = a
            · simp only [hn, if_true, Option.isSome_some, true_iff]
              obtain ⟨m, hm⟩ := ha.mp rfl
              exact ⟨m, by simp [hm]⟩
            · rw [if_neg hn, hr.apps]
              simp
          · intro n b; rw [hr.params]; simp
          · intro n; rw [hr.values]; simp
          · rw [hr.runs]; simp [Instr.runs, or_and_right, exists_or]
  | execution a =>
    rw [compileInstr, compileExecution, Instr.Scoped]
    have ha := hr.apps a
    cases hl : cs.applications.lookup a with
    | none => rw [hl] at ha; intro h; simpa using ha.mpr h
    | some ap =>
      rw [hl] at ha
      refine ⟨ha.mp rfl, ?_, ?_, ?_, ?_, ?_⟩
      · intro n; rw [hr.modules]; simp
      · intro n; rw [hr.apps]; simp
      · intro n b; rw [hr.params]; simp
      · intro n; rw [hr.values]; simp
      · simp [Instr.runs]

mutual
theorem compileValue_scoped (all : List (Module W σ)) (v : SValue) (cs : CState W σ) (pre : List Instr)
    (hr : Rel cs pre) :
    Accepts (compileValue all v cs) (v.Scoped (fun i => ∃ m ∈ all, m.index = i) pre) (fun _ => True) := by
  cases v with
  | var x =>
    rw [compileValue, SValue.Scoped]
    have hpt := hr.params x true
    cases hp : cs.parameters.lookup x with
    | none => rw [hp] at hpt; intro h; simpa using hpt.mpr h
    | some p =>
      rw [hp] at hpt
      simp only
      split
      · rename_i hi; exact ⟨hpt.mp ⟨p, rfl, hi⟩, trivial⟩
      · rename_i hi
        intro h
        obtain ⟨p', hp', hi'⟩ := hpt.mpr h
        cases hp'
        exact hi hi'
  | constant b => rw [compileValue, SValue.Scoped]; exact ⟨trivial, trivial⟩
  | instructions l =>
    rw [compileValue, SValue.Scoped]
    have hl := compileList_scoped all l {} [] rel_empty
    cases hc : compileList all l {} with
    | err => rw [hc] at hl; exact fun h => hl h.1
    | panic => rw [hc] at hl; exact hl
    | ok cs' =>
      rw [hc] at hl
      simp only [program]
      by_cases he : cs'.instructions = []
      · rw [he]
        intro h
        exact hl.2.runs.mpr (by simpa using h.2) he
      · have hne : cs'.instructions.isEmpty = false := by
          cases h : cs'.instructions with
          | nil => exact absurd h he
          | cons => rfl
        rw [hne]
        exact ⟨⟨hl.1, by simpa using hl.2.runs.mp he⟩, trivial⟩
  | execution a =>
    rw [compileValue, SValue.Scoped]
    have ha := hr.apps a
    cases hl : cs.applications.lookup a with
    | none => rw [hl] at ha; intro h; simpa using ha.mpr h
    | some ap => rw [hl] at ha; exact ⟨ha.mp rfl, trivial⟩
termination_by sizeOf v

theorem compileList_scoped (all : List (Module W σ)) (src : List Instr) (cs : CState W σ) (pre : List Instr)
    (hr : Rel cs pre) :
    Accepts (compileList all src cs) (ScopedAfter (fun i => ∃ m ∈ all, m.index = i) pre src)
      (fun cs' => Rel cs' (pre ++ src)) := by
  cases src with
  | nil => rw [compileList, ScopedAfter]; exact ⟨trivial, by simpa using hr⟩
  | cons i is =>
    rw [compileList, ScopedAfter]
    have hi := compileInstr_scoped all i cs pre hr (fun n v he => compileValue_scoped all v cs pre hr)
    cases hc : compileInstr all i cs with
    | err => rw [hc] at hi; exact fun h => hi h.1
    | panic => rw [hc] at hi; exact hi
    | ok cs1 =>
      rw [hc] at hi
      simp only
      have hl := compileList_scoped all is cs1 (pre ++ [i]) hi.2
      cases hcl : compileList all is cs1 with
      | err => rw [hcl] at hl; exact fun h => hl h.2
      | panic => rw [hcl] at hl; exact hl
      | ok cs2 =>
        rw [hcl] at hl
        refine ⟨⟨hi.1, hl.1⟩, ?_⟩
        have := hl.2
        rwa [List.append_assoc, List.singleton_append] at this
termination_by sizeOf src
decreasing_by
  all_goals subst_vars; simp only [List.cons.sizeOf_spec, Instr.assignment.sizeOf_spec]; omega
end

theorem compile_scoped (all : List (Module W σ)) (src : List Instr) :
    Accepts (compile all src) (WellScoped all src) (fun _ => True) := by
  unfold compile WellScoped
  have hl := compileList_scoped all src {} [] rel_empty
  cases hc : compileList all src {} with
  | err => rw [hc] at hl; exact fun h => hl h.1
  | panic => rw [hc] at hl; exact hl
  | ok cs' =>
    rw [hc] at hl
    simp only [program]
    by_cases he : cs'.instructions = []
    · rw [he]
      intro h
      exact hl.2.runs.mpr (by simpa using h.2) he
    · have hne : cs'.instructions.isEmpty = false := by
        cases h : cs'.instructions with
        | nil => exact absurd h he
        | cons => rfl
      rw [hne]
      exact ⟨⟨hl.1, by simpa using hl.2.runs.mp he⟩, trivial⟩

end Rodkina.Interp
