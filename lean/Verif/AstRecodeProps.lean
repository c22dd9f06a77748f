import Verif.AstRecode
import Verif.AstEquivarProps

/-!
# Bytes and names only matter where they are equal (C163)
-/

namespace Rodkina.Props

open Rodkina.Ast Rodkina.Ast.Shipped

/-- **C163.** Replacing the bytes of any grammar and of the input, and the names of the grammar (those of its channels and of
its external grammars too), without making two different bytes or names equal, replaces the bytes and names of whatever
Execute returns and changes nothing else: the tree is the same tree with these replaced;
success, the bytes read and the rest are those of the original with the bytes replaced; errors, panics and recursion
without end come on the same inputs.  Composing a token gives the replaced bytes too. -/
theorem C163_only_compared [Recoding] [Recoding.Faithful] (g : Grammar) (input : Bytes) :
    (∀ n, execute n g.recode (enc input) = (execute n g input).map Tree.recode) ∧
    (∀ m r, Succeeds g.recode (enc input) (enc m) (enc r) ↔ Succeeds g input m r) ∧
    (∀ m r, Succeeds g.recode (enc input) m r → ∃ m' r', m = enc m' ∧ r = enc r' ∧ Succeeds g input m' r') ∧
    (Rejects g.recode (enc input) ↔ Rejects g input) ∧
    (Parses g.recode (enc input) .panic ↔ Parses g input .panic) ∧
    (Diverges g.recode (enc input) ↔ Diverges g input) ∧
    (∀ t : Token, composeToken t.recode = enc <$> composeToken t) := by
  have hs := fun n => execute_recode n g input
  have back : ∀ m r, Succeeds g.recode (enc input) m r → ∃ m' r', m = enc m' ∧ r = enc r' ∧ Succeeds g input m' r' := by
    rintro m r ⟨t', ⟨_, n, hn⟩, h1, h2, h3⟩
    rw [hs n] at hn
    cases ha : execute n g input with
    | ok t =>
      rw [ha] at hn
      cases hn
      rw [Tree.recode_isSuccessful] at h1
      rw [Tree.recode_bytes] at h2
      rw [Tree.recode_remaining] at h3
      exact ⟨_, _, h2.symm, h3.symm, t, ⟨trivial, n, ha⟩, h1, rfl, rfl⟩
    | _ => rw [ha] at hn; cases hn
  refine ⟨hs, fun m r => ⟨fun h => ?_, ?_⟩, back, ⟨?_, ?_⟩, ⟨?_, ?_⟩, ⟨?_, ?_⟩, composeToken_recode⟩
  · obtain ⟨m', r', hm, hr, h'⟩ := back _ _ h
    rw [enc_injective hm, enc_injective hr]
    exact h'
  · rintro ⟨t, ⟨_, n, hn⟩, h1, h2, h3⟩
    refine ⟨t.recode, ⟨trivial, n, by rw [hs n, hn]; rfl⟩, ?_, ?_, ?_⟩
    · rw [Tree.recode_isSuccessful, h1]
    · rw [Tree.recode_bytes, h2]
    · rw [Tree.recode_remaining, h3]
  · rintro (⟨_, n, hn⟩ | ⟨t', ⟨_, n, hn⟩, h1⟩)
    · rw [hs n] at hn
      cases ha : execute n g input with
      | err => exact .inl ⟨trivial, n, ha⟩
      | _ => rw [ha] at hn; cases hn
    · rw [hs n] at hn
      cases ha : execute n g input with
      | ok t =>
        rw [ha] at hn
        cases hn
        rw [Tree.recode_isSuccessful] at h1
        exact .inr ⟨t, ⟨trivial, n, ha⟩, h1⟩
      | _ => rw [ha] at hn; cases hn
  · rintro (⟨_, n, hn⟩ | ⟨t, ⟨_, n, hn⟩, h1⟩)
    · exact .inl ⟨trivial, n, by rw [hs n, hn]; rfl⟩
    · exact .inr ⟨t.recode, ⟨trivial, n, by rw [hs n, hn]; rfl⟩, by rw [Tree.recode_isSuccessful, h1]⟩
  · rintro ⟨_, n, hn⟩
    rw [hs n] at hn
    cases ha : execute n g input with
    | panic => exact ⟨trivial, n, ha⟩
    | _ => rw [ha] at hn; cases hn
  · rintro ⟨_, n, hn⟩
    exact ⟨trivial, n, by rw [hs n, hn]; rfl⟩
  · intro hd n
    have := hd n
    rw [hs n] at this
    cases ha : execute n g input with
    | oof => rfl
    | _ => rw [ha] at this; cases this
  · intro hd n
    rw [hs n, hd n]
    rfl

/-- Every byte one higher, the highest becoming zero; every name with a letter in front. -/
abbrev shifted : Recoding := ⟨fun b => b + 1, fun n => "n" ++ n⟩

theorem shifted_faithful : letI := shifted; Recoding.Faithful := by
  let _ := shifted
  exact ⟨fun a b h => UInt8.add_left_inj 1 |>.mp h, fun a b h => by
    have h' : "n" ++ a = "n" ++ b := h
    simpa using h'⟩

/-- The letters `ab` read by two tokens; one higher they are `bc`, read by the same tokens one higher, under other names. -/
example : letI := shifted; Succeeds (Grammar.mk (twoTokens "x" "y") []).recode [98, 99] [98, 99] [] := by
  let _ := shifted
  have := shifted_faithful
  exact ((C163_only_compared (.mk (twoTokens "x" "y") []) [97, 98]).2.1 [97, 98] []).mpr C80_negation.1

/-- An external grammar and a left-recursive rule around it: what is read one higher, under other names. -/
example (g : Grammar) (input m r : Bytes) (base : List GLine) : letI := shifted;
    Succeeds (Grammar.mk (leftTok "E" [.element 1 none (.external "out" g)] base) []).recode (enc input) (enc m) (enc r) ↔
      Succeeds (.mk (leftTok "E" [.element 1 none (.external "out" g)] base) []) input m r := by
  let _ := shifted
  have := shifted_faithful
  exact (C163_only_compared _ input).2.1 m r

/-- Every byte the same. -/
abbrev blurred : Recoding := ⟨fun _ => 0, id⟩

/-- **C163, the condition is needed.** With one byte for all, a refused text is accepted. -/
theorem C163_injective_needed : Rejects (.mk (twoTokens "x" "y") []) [98, 97] ∧
    (letI := blurred; Succeeds (Grammar.mk (twoTokens "x" "y") []).recode (enc [98, 97]) [0, 0] []) := by
  refine ⟨.inl (parses_of_failed (n := 4) (by decide +kernel)), ?_⟩
  let _ := blurred
  exact succeeds_of_report (n := 4) (by decide +kernel)

end Rodkina.Props
