import Verif.InterpUses
import Verif.InterpValuesProps
import Mathlib.Data.List.Nodup

/-!
# What a program uses of its surroundings (C168, C169)
-/

namespace Rodkina.Props

open Rodkina.Interp

variable {W σ : Type}

/-- **C168.** Two lists of modules in which the modules with the indexes a list of instructions mentions, at any depth, are the same
and in the same order, give the same compiled program, or none. -/
theorem C168_only_mentioned_modules (all all' : List (Module W σ)) (src : List Instr)
    (h : all'.filter (fun m => decide (m.index ∈ listIndexes src)) = all.filter (fun m => decide (m.index ∈ listIndexes src))) :
    compile all' src = compile all src := by
  unfold compile
  rw [compileList_uses src {}]
  intro i hi
  have key : ∀ l : List (Module W σ), fetchModule l i = fetchModule (l.filter (fun m => decide (m.index ∈ listIndexes src))) i := by
    intro l
    unfold fetchModule
    rw [← List.filter_reverse, List.find?_filter]
    congr 1
    funext m
    by_cases hm : m.index = i
    · simp [hm, hi]
    · simp [hm]
  rw [key all', key all, h]

/-- A module nobody mentions makes no difference. -/
example (m : Module Nat Nat) (hm : m.index ≠ 1) (l : List (Module Nat Nat)) : compile (m :: l) countSource = compile l countSource :=
  C168_only_mentioned_modules _ _ _ (by
    rw [List.filter_cons_of_neg]
    simpa [countSource, listIndexes, instrIndexes, valueIndexes] using hm)

/-- The order of modules matters only between modules with the same index. -/
theorem C168_order (all all' : List (Module W σ)) (hp : all'.Perm all) (hn : (all.map (·.index)).Nodup) (src : List Instr) :
    compile all' src = compile all src := by
  unfold compile
  rw [compileList_uses src {}]
  intro i _
  have one : ∀ l : List (Module W σ), l.Perm all → ∀ m, fetchModule l i = some m ↔ m ∈ all ∧ m.index = i := by
    intro l hl m
    have hln : (l.map (·.index)).Nodup := (hl.map (·.index)).nodup_iff.mpr hn
    unfold fetchModule
    constructor
    · intro hf
      exact ⟨hl.mem_iff.mp (List.mem_reverse.mp (List.mem_of_find?_eq_some hf)), by simpa using List.find?_some hf⟩
    · rintro ⟨hm, hi⟩
      have hm' : m ∈ l.reverse := List.mem_reverse.mpr (hl.mem_iff.mpr hm)
      cases hf : l.reverse.find? (fun m => m.index == i) with
      | none => exact absurd (by simpa using hi) (List.find?_eq_none.mp hf m hm')
      | some x =>
        have hx : x ∈ l := List.mem_reverse.mp (List.mem_of_find?_eq_some hf)
        have hxi : x.index = i := by simpa using List.find?_some hf
        rw [List.inj_on_of_nodup_map hln hx (List.mem_reverse.mp hm') (hxi.trans hi.symm)]
  have := one all' hp
  have h2 := one all (.refl _)
  exact Option.ext (fun m => by rw [this, h2])

example (m : Module Nat Nat) (hm : m.index ≠ 1) : compile [m, countModule] countSource = compile [countModule, m] countSource :=
  C168_order _ _ (.swap _ _ _) (by simpa [countModule] using fun h => hm h.symm) _

/-- **C168, among modules with one index the order matters.** The last one is taken. -/
theorem C168_order_needed : ∃ (a b : Module Nat Nat), a.index = b.index ∧
    (match compile [a, b] countSource with | .ok p => (execute [.other 4] p 0).2 | _ => 0) = 3 ∧
    (match compile [b, a] countSource with | .ok p => (execute [.other 4] p 0).2 | _ => 0) = 0 :=
  ⟨⟨1, fun _ s => (.ok (.other 0), s)⟩, countModule, rfl, by decide +kernel, by decide +kernel⟩

/-- **C169.** Inputs added behind the others change nothing, in any program: an execution that does not fail for a missing input gives
the same outputs or the same failure, and has the same effects, with more inputs. -/
theorem C169_more_inputs (input extra : List (Val W)) (p : Program W σ) (s : σ) (h : (execute input p s).1 ≠ .fail .input) :
    execute (input ++ extra) p s = execute input p s :=
  (execProgram_more input extra p s).resolve_left h

/-- Whether the program of `countSource` lacks an input. -/
def countLacks (input : List (Val Nat)) : Bool :=
  match compile [countModule] countSource with
  | .ok p => match (execute input p 0).1 with
    | .fail .input => true
    | _ => false
  | _ => false

example : countLacks [.other 4] = false ∧ countLacks [] = true := by decide +kernel

example (p : Program Nat Nat) (hp : compile [countModule] countSource = .ok p) (extra : List (Val Nat)) :
    execute ([.other 4] ++ extra) p 0 = execute [.other 4] p 0 := by
  refine C169_more_inputs _ _ _ _ (fun h => ?_)
  have : countLacks [.other 4] = false := by decide +kernel
  simp [countLacks, hp, h] at this

/-- **C169, the condition is needed.** An execution that lacks an input may succeed with one more. -/
theorem C169_missing_needed : countLacks [] = true ∧ countLacks ([] ++ [.other 4]) = false ∧
    (countRun countModule 4).1 = some [6] := by decide +kernel

end Rodkina.Props
