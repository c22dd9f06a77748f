import Verif.QueryRecode
import Verif.QueryProps
import Verif.AstRecodeProps

/-!
# Queries only depend on which names are equal (C165)
-/

namespace Rodkina.Props

open Rodkina.Query
open Rodkina.Ast (Tree TContent Out Recoding enc)

variable {W : Type}

/-- **C165.** Replacing the bytes and names of a grammar and the names of a query alike, without making two different bytes or names
equal, leaves the answer of the query on every tree as it is, but for the bytes left over, which are replaced: the same instance,
the same validity, the same errors and panics; provided the functions of the query give for replaced contents what they gave for
the contents.  So does reading an input with the grammar and then asking. -/
theorem C165_queries_only_compare [Recoding] [Recoding.Faithful] (q q' : Query W) (hq : Recoded q q') :
    (∀ n t, execute n q' t.recode = (execute n q t).map Answer.recode) ∧
    (∀ t i v r, Executes q t (.ok ⟨i, v, r⟩) → Executes q' t.recode (.ok ⟨i, v, enc r⟩)) ∧
    (∀ t, Executes q t .err ↔ Executes q' t.recode .err) ∧
    (∀ t, Executes q t .panic ↔ Executes q' t.recode .panic) ∧
    (∀ g input t i v r, Rodkina.Ast.Parses g input (.ok t) → Executes q t (.ok ⟨i, v, r⟩) →
      ∃ t', Rodkina.Ast.Parses g.recode (enc input) (.ok t') ∧ Executes q' t' (.ok ⟨i, v, enc r⟩)) := by
  have hs := fun n t => query_recode n hq t
  have hok : ∀ t i v r, Executes q t (.ok ⟨i, v, r⟩) → Executes q' t.recode (.ok ⟨i, v, enc r⟩) := by
    rintro t i v r ⟨_, n, hn⟩
    exact ⟨by simp, n, by rw [hs n t, hn]; rfl⟩
  refine ⟨hs, hok, fun t => ⟨?_, ?_⟩, fun t => ⟨?_, ?_⟩, ?_⟩
  · rintro ⟨_, n, hn⟩
    exact ⟨by simp, n, by rw [hs n t, hn]; rfl⟩
  · rintro ⟨_, n, hn⟩
    rw [hs n t] at hn
    refine ⟨by simp, n, ?_⟩
    cases h : execute n q t <;> rw [h] at hn <;> first | rfl | cases hn
  · rintro ⟨_, n, hn⟩
    exact ⟨by simp, n, by rw [hs n t, hn]; rfl⟩
  · rintro ⟨_, n, hn⟩
    rw [hs n t] at hn
    refine ⟨by simp, n, ?_⟩
    cases h : execute n q t <;> rw [h] at hn <;> first | rfl | cases hn
  · rintro g input t i v r ⟨_, n, hn⟩ ha
    exact ⟨t.recode, ⟨trivial, n, by rw [Rodkina.Ast.execute_recode, hn]; rfl⟩, hok t i v r ha⟩

/-- The bytes among contents, each one lower: what `valuesOf` gives when every byte was made one higher. -/
def loweredValues (cs : List TContent) : Res (List (Any UInt8)) :=
  .ok (cs.filterMap (fun c => match c with | .value _ b => some (some (b - 1)) | .tree _ => none))

theorem loweredValues_shifted (cs : List TContent) : letI := shifted;
    loweredValues (cs.map TContent.recode) = valuesOf cs := by
  let _ := shifted
  unfold loweredValues valuesOf
  congr 1
  rw [List.filterMap_map]
  congr 1
  funext c
  cases c with
  | value p b =>
    show some (some (b + 1 - 1)) = some (some b)
    rw [UInt8.add_sub_cancel]
  | tree t => rfl

/-- The second element named `b`, under other names and with other bytes. -/
example : letI := shifted;
    Executes (.mk ⟨"nS", "nreverse", "nb", 1, none⟩ (.fn (.multi loweredValues)) (.multi lastOf))
      (node "S" [byteElement "b" 7, byteElement "a" 8, byteElement "b" 9] [5]).recode (.ok ⟨some 9, true, [6]⟩) := by
  let _ := shifted
  have := shifted_faithful
  refine (C165_queries_only_compare (bytesQuery "S" "b" 1) _ (.mk _ _ (.multi loweredValues_shifted))).2.1 _ _ _ [5] ?_
  refine (C53_selection _ _ _ _ _ rfl (by simp [Rodkina.Ast.TLine.elements]) ?_ rfl _).mpr ?_
  · simp [Rodkina.Ast.TLine.elements, byteElement, Rodkina.Ast.TElement.grammar]
  · simp [Rodkina.Ast.TLine.elements, byteElement, Rodkina.Ast.TElement.grammar, Rodkina.Ast.Container.name, Rodkina.Ast.Content.name,
      Rodkina.Ast.TElement.contents, valuesOf, lastOf, applyQueryFn, node, Tree.remaining, Option.map]

/-- The byte an execution answers with, if any. -/
def answeredByte : Out (Answer UInt8) → Option UInt8
  | .ok a => a.instance_
  | _ => none

/-- **C165, the condition is needed.** With one name for two elements the query finds another one. -/
theorem C165_injective_needed :
    answeredByte (execute 2 (bytesQuery "S" "b" 0) (node "S" [byteElement "a" 8, byteElement "b" 9] [])) = some 9 ∧
    (letI : Recoding := ⟨id, fun _ => "S"⟩;
      answeredByte (execute 2 (.mk (⟨"S", "reverse", "b", 0, none⟩ : QToken).recode (.fn (.multi valuesOf)) (.multi lastOf))
        (node "S" [byteElement "a" 8, byteElement "b" 9] []).recode) = some 8) := by
  constructor <;> decide +kernel

end Rodkina.Props
