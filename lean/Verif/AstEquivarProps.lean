import Verif.AstEquivarRun
import Verif.AstLeftProps3

/-!
# Names only matter where they are equal (C162)
-/

namespace Rodkina.Ast

/-- A grammar with the names of its root replaced by `f` and those of its channels by `k`; the grammars of
external elements keep theirs (libs/asts/domain/grammars/grammar.go:3-46). -/
def Grammar.rename (f k : String → String) (g : Grammar) : Grammar := .mk (g.root.rename f) (g.channels.map (Channel.rename k))

/-- What a caller sees of an outcome: the bytes of the tree with and without channels, the rest, whether
the tree is successful and with which alternative; or an error; or a panic. -/
def Out.seen : Out Tree → Out (Bytes × Bytes × Bytes × Option Nat)
  | .ok t => .ok (t.bytes true, t.bytes false, t.remaining, t.block.successful.map TLine.index)
  | .err => .err
  | .panic => .panic
  | .oof => .oof

theorem execute_rename (f k : String → String) (hf : Function.Injective f) (hk : Function.Injective k) (g : Grammar) (input : Bytes) (n : Nat) :
    OutSim TreeSim (execute n g input) (execute n (g.rename f k) input) :=
  (eqv_token n f k hf hk g.root ⟨none, g.channels, false⟩ [] input []).1

theorem OutSim.flip {a b : Out Tree} (h : OutSim TreeSim a b) : OutSim TreeSim b a := by
  cases a <;> cases b <;> simp only [OutSim] at h ⊢
  exact ⟨fun ch => (h.1 ch).symm, h.2.1.symm, h.2.2.1.symm, h.2.2.2.symm⟩

end Rodkina.Ast

namespace Rodkina.Props

open Rodkina.Ast Rodkina.Ast.Shipped

/-- **C162.** Replacing the names of any grammar, without making two different names equal, changes nothing a
caller sees of Execute: success, bytes read, rest, chosen alternative, trees without success, errors,
panics and recursion without end. -/
theorem C162_names_only_compared (f k : String → String) (hf : Function.Injective f) (hk : Function.Injective k) (g : Grammar)
    (input : Bytes) :
    (∀ n, (execute n (g.rename f k) input).seen = (execute n g input).seen) ∧
    (∀ m r, Succeeds (g.rename f k) input m r ↔ Succeeds g input m r) ∧
    (Rejects (g.rename f k) input ↔ Rejects g input) ∧
    (Parses (g.rename f k) input .err ↔ Parses g input .err) ∧
    (Parses (g.rename f k) input .panic ↔ Parses g input .panic) ∧
    (Diverges (g.rename f k) input ↔ Diverges g input) := by
  have hs := execute_rename f k hf hk g input
  have key : ∀ {a b : Grammar}, (∀ n, OutSim TreeSim (execute n a input) (execute n b input)) →
      (∀ m r, Succeeds a input m r → Succeeds b input m r) ∧ (Parses a input .err → Parses b input .err) ∧
      (Parses a input .panic → Parses b input .panic) ∧ (Diverges a input → Diverges b input) ∧
      ((∃ t, Parses a input (.ok t) ∧ t.isSuccessful = false) → ∃ t, Parses b input (.ok t) ∧ t.isSuccessful = false) := by
    intro a b h
    refine ⟨?_, ?_, ?_, ?_, ?_⟩
    · rintro m r ⟨t, ⟨_, n, hn⟩, h1, h2, h3⟩
      have := h n
      rw [hn] at this
      cases hb : execute n b input with
      | ok t' =>
        rw [hb] at this
        exact ⟨t', ⟨trivial, n, hb⟩, by rw [← this.2.2.1, h1], by rw [← this.1, h2], by rw [← this.2.1, h3]⟩
      | _ => rw [hb] at this; exact absurd this (by simp [OutSim])
    · rintro ⟨_, n, hn⟩
      have := h n
      rw [hn] at this
      cases hb : execute n b input with
      | err => exact ⟨trivial, n, hb⟩
      | _ => rw [hb] at this; exact absurd this (by simp [OutSim])
    · rintro ⟨_, n, hn⟩
      have := h n
      rw [hn] at this
      cases hb : execute n b input with
      | panic => exact ⟨trivial, n, hb⟩
      | _ => rw [hb] at this; exact absurd this (by simp [OutSim])
    · intro hd n
      have := h n
      rw [hd n] at this
      cases hb : execute n b input with
      | oof => rfl
      | _ => rw [hb] at this; exact absurd this (by simp [OutSim])
    · rintro ⟨t, ⟨_, n, hn⟩, h1⟩
      have := h n
      rw [hn] at this
      cases hb : execute n b input with
      | ok t' =>
        rw [hb] at this
        exact ⟨t', ⟨trivial, n, hb⟩, by rw [← this.2.2.1, h1]⟩
      | _ => rw [hb] at this; exact absurd this (by simp [OutSim])
  obtain ⟨a1, a2, a3, a4, a5⟩ := key hs
  obtain ⟨b1, b2, b3, b4, b5⟩ := key (fun n => (hs n).flip)
  refine ⟨fun n => ?_, fun m r => ⟨b1 m r, a1 m r⟩, ⟨?_, ?_⟩, ⟨b2, a2⟩, ⟨b3, a3⟩, ⟨b4, a4⟩⟩
  · have := hs n
    cases ha : execute n g input <;> cases hb : execute n (g.rename f k) input <;> rw [ha, hb] at this <;>
      simp only [OutSim] at this <;> simp only [Out.seen]
    rw [this.1, this.1, this.2.1, this.2.2.2]
  · rintro (h | h)
    · exact .inl (b2 h)
    · exact .inr (b5 h)
  · rintro (h | h)
    · exact .inl (a2 h)
    · exact .inr (a5 h)

/-- The rules `E: E + 1 | 1` with blanks around them, every name prefixed: a left-recursive grammar, outside every
reference interpreter. -/
example (input m r : Bytes) (base : List GLine) (tail : List Container) (chs : List Channel) :
    Succeeds (Grammar.rename (fun n => "x" ++ n) (fun n => "y" ++ n) (.mk (leftTok "E" tail base) chs)) input m r ↔
      Succeeds (.mk (leftTok "E" tail base) chs) input m r :=
  (C162_names_only_compared _ _ (fun _ _ h => by simpa using h) (fun _ _ h => by simpa using h) _ input).2.1 m r

/-- **C162, the condition is needed.** With one name for two tokens that differed, an accepted text is refused. -/
theorem C162_injective_needed : Succeeds (.mk (twoTokens "x" "y") []) [97, 98] [97, 98] [] ∧
    ¬ Succeeds (Grammar.rename (fun _ => "x") id (.mk (twoTokens "x" "y") [])) [97, 98] [97, 98] [] := by
  refine ⟨C80_negation.1, fun h => ?_⟩
  have h3 : Parses (Grammar.rename (fun _ => "x") id (.mk (twoTokens "x" "y") [])) [97, 98] .err :=
    parses_of_failed (n := 4) (by decide +kernel)
  exact h.not_rejects (.inl h3)

end Rodkina.Props
