import Verif.AstLeftRec

/-!
# Left-recursive rules on every input (C155)

The claim one would like: a rule such as `E: E p x | E m x | x` reads as many operands as there are.  It is false of the code;
here is what the two usual rules read instead.
-/

namespace Rodkina.Props

open Rodkina.Ast Rodkina.Ast.Cost

/-- Operand, then as many operators with an operand as there are: what a reader expects of `E: E op x | … | x`. -/
inductive Operands (ops : List UInt8) (x : UInt8) : Bytes → Prop
  | one : Operands ops x [x]
  | more {b : Bytes} {o : UInt8} : Operands ops x b → o ∈ ops → Operands ops x (b ++ [o, x])

theorem parses_of_gets {g : Grammar} {d b r : Bytes} {n : Nat} (hc : g.channels = []) (h : Gets (Cost.token n g.root c0 [] d []) b r) :
    Succeeds g d b r := by
  obtain ⟨t, k, h, ht⟩ := h
  refine ⟨t, ⟨trivial, n, ?_⟩, ht⟩
  rw [← erase_execute, hc, h]

theorem parses_of_fails {g : Grammar} {d : Bytes} {n : Nat} (hc : g.channels = []) (h : Fails (Cost.token n g.root c0 [] d [])) :
    Parses g d .err := by
  obtain ⟨k, h⟩ := h
  refine ⟨trivial, n, ?_⟩
  rw [← erase_execute, hc, h]

/-- **C155, one left-recursive alternative.**  `E: E p x | x` reads `x p x` where it occurs and never more, else `x`, else it refuses. -/
theorem C155_one_alternative_partial (p x : UInt8) (input : Bytes) :
    (∀ r, input = x :: p :: x :: r → Succeeds (.mk (sumTok p x) []) input [x, p, x] r) ∧
    (∀ r, input = x :: r → (∀ r', r ≠ p :: x :: r') → Succeeds (.mk (sumTok p x) []) input [x] r) ∧
    ((∀ r, input ≠ x :: r) → Parses (.mk (sumTok p x) []) input .err) := by
  have hg : (Grammar.mk (sumTok p x) []).channels = [] := rfl
  rcases sum_root p x 0 [] input with ⟨r, rfl, h⟩ | ⟨r, rfl, hr, h⟩ | ⟨hr, h⟩
  · refine ⟨?_, ?_, ?_⟩
    · intro r' hr'
      simp at hr'
      subst hr'
      exact parses_of_gets hg h
    · intro r' hr' hn
      simp at hr'
      exact absurd hr'.symm (hn r)
    · intro hn
      exact absurd rfl (hn _)
  · refine ⟨?_, ?_, ?_⟩
    · intro r' hr'
      simp at hr'
      exact absurd hr' (hr r')
    · intro r' hr' _
      simp at hr'
      subst hr'
      exact parses_of_gets hg h
    · intro hn
      exact absurd rfl (hn _)
  · exact ⟨fun r h' => absurd h' (hr _), fun r h' => absurd h' (hr _), fun _ => parses_of_fails hg h⟩

/-- **C155, two left-recursive alternatives.**  `E: E p x | E m x | x` reads `x p x`, or `x m x p x`, at the start of the input; it refuses
the empty input; on every other input, the single operand among them, parsing recurses without end. -/
theorem C155_two_alternatives_partial (p m x : UInt8) (hpm : p ≠ m) (input : Bytes) :
    (∀ r, input = x :: p :: x :: r → Succeeds (.mk (exprTok p m x) []) input [x, p, x] r) ∧
    (∀ r, input = x :: m :: x :: p :: x :: r → (∀ r', input ≠ x :: p :: x :: r') →
      Succeeds (.mk (exprTok p m x) []) input [x, m, x, p, x] r) ∧
    (input = [] → Parses (.mk (exprTok p m x) []) input .err) ∧
    (input ≠ [] → (∀ r, input ≠ x :: p :: x :: r) → (∀ r, input ≠ x :: m :: x :: p :: x :: r) →
      Diverges (.mk (exprTok p m x) []) input) := by
  have hg : (Grammar.mk (exprTok p m x) []).channels = [] := rfl
  rcases expr_root p m x hpm input with ⟨r, rfl, h⟩ | ⟨r, rfl, h⟩ | ⟨rfl, h⟩ | ⟨hd, h1, h2, h⟩
  · refine ⟨?_, ?_, ?_, ?_⟩
    · intro r' hr'
      simp at hr'
      subst hr'
      exact parses_of_gets hg (h 0 [])
    · intro r' _ hn
      exact absurd rfl (hn _)
    · intro h'; simp at h'
    · intro _ hn; exact absurd rfl (hn _)
  · refine ⟨?_, ?_, ?_, ?_⟩
    · intro r' hr'
      simp at hr'
      exact absurd hr'.1.symm hpm
    · intro r' hr' _
      simp at hr'
      subst hr'
      exact parses_of_gets hg (h 0 [])
    · intro h'; simp at h'
    · intro _ _ hn; exact absurd rfl (hn _)
  · exact ⟨fun r h' => by simp at h', fun r h' => by simp at h', fun _ => parses_of_fails hg (h 0 []), fun h' => absurd rfl h'⟩
  · refine ⟨fun r h' => absurd h' (h1 r), fun r h' => absurd h' (h2 r), fun h' => absurd h' hd, fun _ _ _ n => ?_⟩
    rw [← erase_execute]
    exact h n []

/-- **C155 (negation).**  Three operands with one operator are an expression, and yet only two are read; one operand is an expression, and
yet the rule with two operators never ends on it. -/
theorem C155_not_all_operands (p m x : UInt8) (hpm : p ≠ m) :
    (Operands [p] x [x, p, x, p, x] ∧ Succeeds (.mk (sumTok p x) []) [x, p, x, p, x] [x, p, x] [p, x] ∧
      ¬ Succeeds (.mk (sumTok p x) []) [x, p, x, p, x] [x, p, x, p, x] []) ∧
    (Operands [p, m] x [x] ∧ Diverges (.mk (exprTok p m x) []) [x]) ∧
    (Operands [p, m] x [x, m, x] ∧ Diverges (.mk (exprTok p m x) []) [x, m, x]) := by
  have hs : Succeeds (.mk (sumTok p x) []) [x, p, x, p, x] [x, p, x] [p, x] := (C155_one_alternative_partial p x _).1 _ rfl
  refine ⟨⟨.more (.more .one (by simp)) (by simp), hs, fun h => ?_⟩, ⟨.one, ?_⟩, ⟨.more .one (by simp), ?_⟩⟩
  · simpa using (hs.unique h).1
  · exact (C155_two_alternatives_partial p m x hpm [x]).2.2.2 (by simp) (by simp) (by simp)
  · exact (C155_two_alternatives_partial p m x hpm [x, m, x]).2.2.2 (by simp) (by simp [hpm.symm]) (by simp)

/-- **C155, what both rules read is an expression.**  Whatever the two rules return as read is an operand followed by operators with their
operands, at the start of the input, and the rest is what follows. -/
theorem C155_reads_expressions (p m x : UInt8) (hpm : p ≠ m) (input b r : Bytes) :
    (Succeeds (.mk (sumTok p x) []) input b r → Operands [p] x b ∧ input = b ++ r) ∧
    (Succeeds (.mk (exprTok p m x) []) input b r → Operands [p, m] x b ∧ input = b ++ r) := by
  constructor
  · intro h
    obtain ⟨h1, h2, h3⟩ := C155_one_alternative_partial p x input
    by_cases e1 : ∃ r, input = x :: p :: x :: r
    · obtain ⟨r1, rfl⟩ := e1
      obtain ⟨rfl, rfl⟩ := h.unique (h1 _ rfl)
      exact ⟨.more .one (by simp), rfl⟩
    · by_cases e2 : ∃ r, input = x :: r
      · obtain ⟨r1, rfl⟩ := e2
        obtain ⟨rfl, rfl⟩ := h.unique (h2 _ rfl (fun r' hr' => e1 ⟨r', by rw [hr']⟩))
        exact ⟨.one, rfl⟩
      · exact absurd (.inl (h3 (fun r hr => e2 ⟨r, hr⟩))) h.not_rejects
  · intro h
    obtain ⟨h1, h2, h3, h4⟩ := C155_two_alternatives_partial p m x hpm input
    by_cases e1 : ∃ r, input = x :: p :: x :: r
    · obtain ⟨r1, rfl⟩ := e1
      obtain ⟨rfl, rfl⟩ := h.unique (h1 _ rfl)
      exact ⟨.more .one (by simp), rfl⟩
    · have e1' : ∀ r, input ≠ x :: p :: x :: r := fun r hr => e1 ⟨r, hr⟩
      by_cases e2 : ∃ r, input = x :: m :: x :: p :: x :: r
      · obtain ⟨r1, rfl⟩ := e2
        obtain ⟨rfl, rfl⟩ := h.unique (h2 _ rfl e1')
        exact ⟨.more (.more .one (by simp)) (by simp), rfl⟩
      · by_cases e3 : input = []
        · exact absurd (.inl (h3 e3)) h.not_rejects
        · obtain ⟨t, ⟨_, n, hn⟩, _⟩ := h
          have := h4 e3 e1' (fun r hr => e2 ⟨r, hr⟩) n
          rw [this] at hn
          exact absurd hn (by simp)

/-- `1-1+1` is read whole, of `1+1-1` the first three bytes, and `1-1` never ends. -/
example :
    Succeeds (.mk (exprTok 43 45 49) []) [49, 45, 49, 43, 49] [49, 45, 49, 43, 49] [] ∧
    Succeeds (.mk (exprTok 43 45 49) []) [49, 43, 49, 45, 49] [49, 43, 49] [45, 49] ∧
    Diverges (.mk (exprTok 43 45 49) []) [49, 45, 49] :=
  ⟨(C155_two_alternatives_partial 43 45 49 (by simp) _).2.1 _ rfl (by simp), (C155_two_alternatives_partial 43 45 49 (by simp) _).1 _ rfl,
    (C155_not_all_operands 43 45 49 (by simp)).2.2.2⟩

/-- `1` is read, of `1+` the operand, of `1+1+1` two operands, and `+1` is refused. -/
example :
    Succeeds (.mk (sumTok 43 49) []) [49] [49] [] ∧ Succeeds (.mk (sumTok 43 49) []) [49, 43] [49] [43] ∧
    Succeeds (.mk (sumTok 43 49) []) [49, 43, 49, 43, 49] [49, 43, 49] [43, 49] ∧ Parses (.mk (sumTok 43 49) []) [43, 49] .err :=
  ⟨(C155_one_alternative_partial 43 49 _).2.1 _ rfl (by simp), (C155_one_alternative_partial 43 49 _).2.1 _ rfl (by simp),
    (C155_one_alternative_partial 43 49 _).1 _ rfl, (C155_one_alternative_partial 43 49 _).2.2 (by simp)⟩

example : Operands [43] 49 [49, 43, 49] ∧ [49, 43, 49, 43, 49] = [49, 43, 49] ++ ([43, 49] : Bytes) :=
  (C155_reads_expressions 43 45 49 (by simp) _ _ _).1 ((C155_one_alternative_partial 43 49 _).1 _ rfl)

end Rodkina.Props
