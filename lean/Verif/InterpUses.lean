import Verif.Interp

/-!
# What a program uses of its surroundings
-/

namespace Rodkina.Interp

variable {W σ : Type}

mutual
/-- The indexes of modules an instruction mentions (libs/interpreters/domain/instructions/instruction.go:10-133), at any depth. -/
def instrIndexes : Instr → List Nat
  | .module index _ => [index]
  | .assignment _ v => valueIndexes v
  | _ => []
/-- Those of a value (libs/interpreters/domain/instructions/value.go:3-88). -/
def valueIndexes : SValue → List Nat
  | .instructions list => listIndexes list
  | _ => []
/-- Those of a list of instructions. -/
def listIndexes : List Instr → List Nat
  | [] => []
  | i :: is => instrIndexes i ++ listIndexes is
end

mutual
theorem compileValue_uses {all all' : List (Module W σ)} : ∀ (v : SValue) (cs : CState W σ),
    (∀ i ∈ valueIndexes v, fetchModule all' i = fetchModule all i) → compileValue all' v cs = compileValue all v cs
  | .var _, _, _ => by simp only [compileValue]
  | .constant _, _, _ => by simp only [compileValue]
  | .execution _, _, _ => by simp only [compileValue]
  | .instructions list, cs, h => by
    simp only [compileValue]
    rw [compileList_uses list {} (by simpa only [valueIndexes] using h)]
theorem compileInstr_uses {all all' : List (Module W σ)} : ∀ (i : Instr) (cs : CState W σ),
    (∀ n ∈ instrIndexes i, fetchModule all' n = fetchModule all n) → compileInstr all' i cs = compileInstr all i cs
  | .module index name, cs, h => by
    simp only [compileInstr, compileModule]
    rw [h index (by simp [instrIndexes])]
  | .application _ _, _, _ => by simp only [compileInstr]
  | .parameter _ _, _, _ => by simp only [compileInstr]
  | .attachment _ _ _, _, _ => by simp only [compileInstr]
  | .execution _, _, _ => by simp only [compileInstr]
  | .assignment name v, cs, h => by
    simp only [compileInstr]
    rw [compileValue_uses v cs (by simpa only [instrIndexes] using h)]
theorem compileList_uses {all all' : List (Module W σ)} : ∀ (is : List Instr) (cs : CState W σ),
    (∀ i ∈ listIndexes is, fetchModule all' i = fetchModule all i) → compileList all' is cs = compileList all is cs
  | [], _, _ => by simp only [compileList]
  | i :: is, cs, h => by
    simp only [compileList]
    rw [compileInstr_uses i cs (fun n hn => h n (by simp only [listIndexes]; exact List.mem_append_left _ hn))]
    cases compileInstr all i cs with
    | err => rfl
    | panic => rfl
    | ok cs' => exact compileList_uses is cs' (fun n hn => h n (by simp only [listIndexes]; exact List.mem_append_right _ hn))
end

/-! ## More inputs -/

/-- The first execution lacks an input, or the second does the same. -/
def More {α : Type} (m m' : EM σ α) : Prop := ∀ s, (m s).1 = .fail .input ∨ m' s = m s

theorem More.same {α : Type} (m : EM σ α) : More m m := fun _ => .inr rfl

theorem More.bind {α β : Type} {m m' : EM σ α} {f f' : α → EM σ β} (hm : More m m') (hf : ∀ a, More (f a) (f' a)) :
    More (m >>= f) (m' >>= f') := by
  intro s
  show (EM.andThen m f s).1 = .fail .input ∨ EM.andThen m' f' s = EM.andThen m f s
  unfold EM.andThen
  rcases hm s with h | h
  · left
    revert h
    generalize m s = r
    obtain ⟨o, s'⟩ := r
    rintro ⟨⟩
    rfl
  · rw [h]
    generalize m s = r
    obtain ⟨o, s'⟩ := r
    cases o with
    | ok a => exact hf a s'
    | fail r => exact .inr rfl
    | panic => exact .inr rfl

mutual
theorem execProgram_more (input extra : List (Val W)) : ∀ p : Program W σ, More (execProgram input p) (execProgram (input ++ extra) p)
  | .mk is outputs => by
    simp only [execProgram]
    exact (execInstrs_more input extra is 0 []).bind (fun values => .same _)
theorem execInstrs_more (input extra : List (Val W)) : ∀ (is : List (PInstr W σ)) (idx : Nat) (values : List (Nat × Val W)),
    More (execInstrs input is idx values) (execInstrs (input ++ extra) is idx values)
  | [], idx, values => by
    simp only [execInstrs]
    exact .same _
  | .value v :: is, idx, values => by
    simp only [execInstrs]
    exact (execValue_more input extra v).bind (fun x => execInstrs_more input extra is _ _)
  | .execution a :: is, idx, values => by
    simp only [execInstrs]
    exact (execApp_more input extra a).bind (fun _ => execInstrs_more input extra is _ _)
theorem execValue_more (input extra : List (Val W)) : ∀ v : PValue W σ, More (execValue input v) (execValue (input ++ extra) v)
  | .input i => by
    simp only [execValue]
    by_cases hi : i < input.length
    · rw [List.getElem?_append_left hi]
      exact .same _
    · rw [List.getElem?_eq_none (by omega)]
      exact fun s => .inl rfl
  | .constant b => by
    simp only [execValue]
    exact .same _
  | .program p => by
    simp only [execValue]
    exact (execProgram_more input extra p).bind (fun _ => .same _)
  | .execution a => by
    simp only [execValue]
    exact execApp_more input extra a
theorem execApp_more (input extra : List (Val W)) : ∀ a : App W σ, More (execApp input a) (execApp (input ++ extra) a)
  | .mk _ m atts => by
    simp only [execApp]
    exact (execAttachments_more input extra atts _).bind (fun _ => .same _)
theorem execAttachments_more (input extra : List (Val W)) : ∀ (atts : List (Attachment W σ)) (ps : Params W),
    More (execAttachments input atts ps) (execAttachments (input ++ extra) atts ps)
  | [], ps => by
    simp only [execAttachments]
    exact .same _
  | .mk v t :: rest, ps => by
    simp only [execAttachments]
    exact (execValue_more input extra v).bind (fun x => execAttachments_more input extra rest _)
end

end Rodkina.Interp
