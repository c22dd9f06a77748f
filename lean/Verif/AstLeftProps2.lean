import Verif.AstLeftRec
import Verif.AstLeftTerm
import Verif.AstCostMono

/-!
# Left recursion in the first alternative (C156)
-/

namespace Rodkina.Ast.Cost

open CM

/-- The rule `E: o E c | E p x | x`: the left-recursive line is not the first (libs/asts/domain/grammars/token.go:3-56). -/
def lateTok (o c p x : UInt8) : Token :=
  .mk "E" [.mk [one o, ref "E", one c], .mk [ref "E", one p, one x], .mk [one x]] []

/-- The rule `E: E p x | o E c | x`: the same lines, the left-recursive one first (libs/asts/domain/grammars/token.go:3-56). -/
def firstTok (o c p x : UInt8) : Token :=
  .mk "E" [.mk [ref "E", one p, one x], .mk [one o, ref "E", one c], .mk [one x]] []

section
variable (o c p x : UInt8) (r : Bytes)

theorem lineLoop_one_no {rec : Rec} {v : UInt8} {d : Bytes} (h : d.head? ≠ some v) (p0 : Bytes) (cs : List Container) (es : List TElement)
    (pr : Bytes) (s : Stk) : ∃ k, lineLoop rec c0 p0 (one v :: cs) ⟨es, pr, d⟩ s = (.err, s, k) := by
  cases d with
  | nil => exact lineLoop_one_nil _ _ _ _ _ _
  | cons b d => exact ⟨_, lineLoop_one_miss (by intro hb; exact h (by simp [hb])) _ _ _ _ _ _⟩

/-- Both first lines under way on these bytes. -/
theorem late_base (n : Nat) (pr : Bytes) (ls : List (Nat × Bytes)) (h0 : ls.lookup 0 = some (x :: r)) (h1 : ls.lookup 1 = some (x :: r))
    (h2 : ls.lookup 2 ≠ some (x :: r)) :
    Gets (token (n + 1) (lateTok o c p x) c0 pr (x :: r) [((lateTok o c p x).name, ⟨lateTok o c p x, ls⟩)]) [x] r := by
  rcases last_token (rec := token n) (p := pr) (d := x :: r) (i := 2) (x := x) (tok := lateTok o c p x)
    (s := [((lateTok o c p x).name, ⟨lateTok o c p x, ls⟩)]) rfl (enter_one _ _)
    ((blk_skip _ (tried_yes _ h0)).trans (blk_skip _ (tried_yes _ h1))) (.inr ⟨_, rfl, h2⟩) with ⟨r', hr', h⟩ | ⟨h, _⟩
  · simp at hr'
    subst hr'
    exact h
  · exact absurd rfl (h r)

/-- Nothing under way on these bytes. -/
theorem late_fresh (hox : o ≠ x) (hp : r.head? ≠ some p) (n : Nat) (pr : Bytes) (ls : List (Nat × Bytes))
    (hls : ∀ i, ls.lookup i ≠ some (x :: r)) :
    Gets (token (n + 2) (lateTok o c p x) c0 pr (x :: r) [((lateTok o c p x).name, ⟨lateTok o c p x, ls⟩)]) [x] r := by
  have e1 : blk (token (n + 1)) (lateTok o c p x) pr (x :: r) 0 (lateTok o c p x).lines [((lateTok o c p x).name, ⟨lateTok o c p x, ls⟩)]
      = blk (token (n + 1)) (lateTok o c p x) pr (x :: r) 1 [.mk [ref "E", one p, one x], .mk [one x]]
        [((lateTok o c p x).name, ⟨lateTok o c p x, (0, x :: r) :: ls⟩)] :=
    blk_err _ (tried_one _ (hls 0)) (by rw [record_one]; exact lineLoop_one_miss hox _ _ _ _ _ _)
  have hb := late_base o c p x r n pr ((1, x :: r) :: (0, x :: r) :: ls) (by simp [List.lookup]) (by simp)
    (by simpa [List.lookup] using hls 2)
  have e2 : blk (token (n + 1)) (lateTok o c p x) pr (x :: r) 1 [.mk [ref "E", one p, one x], .mk [one x]]
      [((lateTok o c p x).name, ⟨lateTok o c p x, (0, x :: r) :: ls⟩)]
      = blk (token (n + 1)) (lateTok o c p x) pr (x :: r) 2 [.mk [one x]] [] := by
    rcases left_line_ok (gs := [.mk [one x]]) (v := p) (x := x) rfl (by simp)
      (tried_one (lateTok o c p x) (by simpa [List.lookup] using hls 1)) (record_one _ _ _ _) hb with ⟨r2, hr2, _⟩ | ⟨_, hl⟩
    · rw [hr2] at hp
      exact absurd rfl hp
    · exact hl
  rcases last_token (s := [((lateTok o c p x).name, ⟨lateTok o c p x, ls⟩)]) rfl (enter_one _ _) (e1.trans e2) (.inl rfl) with
    ⟨r', hr', h⟩ | ⟨h, _⟩
  · simp at hr'
    subst hr'
    exact h
  · exact absurd rfl (h r)

theorem late_fresh_or (hox : o ≠ x) (hp : r.head? ≠ some p) (n : Nat) (pr : Bytes) (ls : List (Nat × Bytes))
    (hls : ∀ i, ls.lookup i ≠ some (x :: r)) :
    (token n (lateTok o c p x) c0 pr (x :: r) [((lateTok o c p x).name, ⟨lateTok o c p x, ls⟩)]).1 = .oof ∨
    Gets (token n (lateTok o c p x) c0 pr (x :: r) [((lateTok o c p x).name, ⟨lateTok o c p x, ls⟩)]) [x] r := by
  by_cases h : (token n (lateTok o c p x) c0 pr (x :: r) [((lateTok o c p x).name, ⟨lateTok o c p x, ls⟩)]).1 = .oof
  · exact .inl h
  · right
    rw [← token_mono (Nat.le_add_right n 2) h]
    exact late_fresh o c p x r hox hp n pr ls hls

/-- The bracketed line on a bracket that is not closed: it fails and empties the map, or the nesting is exhausted. -/
theorem late_open (hox : o ≠ x) (hp : r.head? ≠ some p) (hc : r.head? ≠ some c) (n : Nat) (pr : Bytes) (ls : List (Nat × Bytes))
    (hls : ∀ i, ls.lookup i ≠ some (x :: r)) :
    (lineLoop (token n) c0 pr [one o, ref "E", one c] ⟨[], pr, o :: x :: r⟩ [((lateTok o c p x).name, ⟨lateTok o c p x, ls⟩)]).1 = .oof ∨
    ∃ k, lineLoop (token n) c0 pr [one o, ref "E", one c] ⟨[], pr, o :: x :: r⟩ [((lateTok o c p x).name, ⟨lateTok o c p x, ls⟩)]
      = (.err, [], k) := by
  rw [lineLoop_one_hit]
  rcases late_fresh_or o c p x r hox hp n (o :: x :: r) ls hls with h | ⟨t, k, h, ht⟩
  · exact .inl (lineLoop_ref_oof _ _ _ _ _ (by simp) (recursive_one (lateTok o c p x) _) h)
  · right
    have hl := lineLoop_ref_ok pr [one c] ([] ++ [hit o]) (o :: x :: r) (x :: r) (by simp) (recursive_one (lateTok o c p x) ls) h ht.1
    rw [ht.2.2] at hl
    obtain ⟨k', hk⟩ := lineLoop_one_no (rec := token n) hc pr [] ([] ++ [hit o] ++ [got (lateTok o c p x).name t]) (x :: r) []
    rw [hk] at hl
    have hl' : lineLoop (token n) c0 pr [ref "E", one c] ⟨[] ++ [hit o], o :: x :: r, x :: r⟩
        [((lateTok o c p x).name, ⟨lateTok o c p x, ls⟩)] = (.err, [], 3 + k + k') := hl
    rw [hl']
    exact ⟨_, rfl⟩

/-- Everything but the bracketed line leads to the second line with an empty map. -/
theorem late_again (hox : o ≠ x) (hp : r.head? ≠ some p) (hc : r.head? ≠ some c) (n : Nat) : ∀ (pr : Bytes) (ls : List (Nat × Bytes)),
    (∀ i, ls.lookup i ≠ some (x :: r)) → ls.lookup 0 ≠ some (o :: x :: r) →
    (token n (lateTok o c p x) c0 pr (o :: x :: r) [((lateTok o c p x).name, ⟨lateTok o c p x, ls⟩)]).1 = .oof := by
  induction n with
  | zero => intro pr ls _ _; rfl
  | succ n ih =>
    intro pr ls hls h0
    apply tokenBody_oof
    rw [enter_one]
    change (blk (token n) (lateTok o c p x) pr (o :: x :: r) 0
      [.mk [one o, ref "E", one c], .mk [ref "E", one p, one x], .mk [one x]] [((lateTok o c p x).name, ⟨lateTok o c p x, ls⟩)]).1 = .oof
    have hno := tried_one (lateTok o c p x) h0
    have hls' : ∀ i, List.lookup i ((0, o :: x :: r) :: ls) ≠ some (x :: r) := by
      intro i hi
      rw [List.lookup_cons] at hi
      split at hi
      · simp at hi
      · exact hls i hi
    rcases late_open o c p x r hox hp hc n pr ((0, o :: x :: r) :: ls) hls' with h | ⟨k, h⟩
    · exact blk_oof _ hno (by rw [record_one]; exact h)
    · rw [blk_err _ hno (by rw [record_one]; exact h)]
      refine blk_oof _ (tried_nil _ _ _) ?_
      rw [record_nil]
      refine lineLoop_ref_oof _ _ _ _ _ (by simp) (recursive_one (lateTok o c p x) _) (ih _ _ ?_ (by simp [List.lookup]))
      intro i hi
      rw [List.lookup_cons] at hi
      split at hi
      · simp at hi
      · simp at hi

end

end Rodkina.Ast.Cost

namespace Rodkina.Props

open Rodkina.Ast Rodkina.Ast.Cost

/-- **C156.** Parsing ends on every input when left recursion only occurs at the start of the first alternative of a token. -/
theorem C156_first_alternative {S : Token → Prop} (hS : LeftSet S) (g : Grammar) (hroot : S g.root)
    (hc : ∀ c ∈ g.channels, c.All lineGuarded) (input : Bytes) :
    (∃ o, Parses g input o) ∧ ∀ n, 2 * grammarX input.length g ≤ n → execute n g input ≠ .oof := by
  have h := execute_left hS hroot hc input
  refine ⟨?_, fun n hn => ?_⟩
  · rcases parses_or_diverges g input with h' | h'
    · exact h'
    · exact absurd (h' _) h
  · unfold execute at h ⊢
    rw [Ast.token_mono hn h]
    exact h

/-- The tokens of `E: E p x | o E c | x`. -/
theorem first_leftSet (o c p x : UInt8) : LeftSet (fun t => t = firstTok o c p x) := by
  refine ⟨fun t u ht hu _ => ht.trans hu.symm, ?_, ?_⟩
  · rintro t rfl i g hg
    match i, hg with
    | 0, hg =>
      cases hg
      exact .inr ⟨rfl, 1, some 1, _, rfl, by simp [guardedFrom, Container.isRecursive]⟩
    | 1, hg =>
      cases hg
      exact .inl (by simp [lineGuarded, GLine.containers, guardedFrom, Container.isRecursive, Container.mustOccur])
    | 2, hg =>
      cases hg
      exact .inl (by simp [lineGuarded, GLine.containers, guardedFrom, Container.isRecursive])
    | i + 3, hg => simp [firstTok, Token.lines] at hg
  · rintro t rfl g hg cc hcc
    simp only [firstTok, Token.lines, List.mem_cons, List.not_mem_nil, or_false] at hg
    rcases hg with rfl | rfl | rfl <;> simp only [GLine.containers, List.mem_cons, List.not_mem_nil, or_false] at hcc
    · rcases hcc with rfl | rfl | rfl <;> trivial
    · rcases hcc with rfl | rfl | rfl <;> trivial
    · subst hcc; trivial

/-- **C156, the order matters.** With the left-recursive alternative first the rule `E: E p x | o E c | x` ends on every input; with the
bracketed one first, `E: o E c | E p x | x` recurses without end on a bracket that is opened before an operand and followed neither by the
closing bracket nor by the operator. -/
theorem C156_order_matters (o c p x : UInt8) (hox : o ≠ x) :
    (∀ input, ∃ out, Parses (.mk (firstTok o c p x) []) input out) ∧
    (∀ r : Bytes, r.head? ≠ some p → r.head? ≠ some c → Diverges (.mk (lateTok o c p x) []) (o :: x :: r)) := by
  refine ⟨fun input => (C156_first_alternative (first_leftSet o c p x) _ rfl (by simp [Grammar.channels]) input).1, fun r hp hc n => ?_⟩
  rw [← erase_execute]
  cases n with
  | zero => rfl
  | succ n =>
    have := late_again o c p x r hox hp hc (n + 1) [] [] (by simp) (by simp)
    have e1 : (enter (lateTok o c p x) []).2 = [((lateTok o c p x).name, ⟨lateTok o c p x, []⟩)] := rfl
    have e2 := enter_one (lateTok o c p x) []
    have h : ∀ s s', (enter (lateTok o c p x) s).2 = s' → (enter (lateTok o c p x) s').2 = s' →
        (Cost.token (n + 1) (lateTok o c p x) c0 [] (o :: x :: r) s).1 = (Cost.token (n + 1) (lateTok o c p x) c0 [] (o :: x :: r) s').1 := by
      intro s s' h1 h2
      change (Cost.tokenBody (Cost.token n) (lateTok o c p x) c0 [] (o :: x :: r) s).1
        = (Cost.tokenBody (Cost.token n) (lateTok o c p x) c0 [] (o :: x :: r) s').1
      have g1 : enter (lateTok o c p x) s = (.ok (), s') := by
        rw [← h1]; unfold enter; split <;> rfl
      have g2 : enter (lateTok o c p x) s' = (.ok (), s') := by
        conv_rhs => rw [← h2]
        unfold enter; split <;> rfl
      unfold Cost.tokenBody
      simp only [bind_run, tick_run, lift_run, g1, g2]
    exact (h _ _ e1 e2).trans this

/-- `(1` and `(1]`, with `E: ( E ) | E + 1 | 1`. -/
example : Diverges (.mk (lateTok 40 41 43 49) []) [40, 49] ∧ Diverges (.mk (lateTok 40 41 43 49) []) [40, 49, 93] :=
  ⟨(C156_order_matters 40 41 43 49 (by simp)).2 [] (by simp) (by simp), (C156_order_matters 40 41 43 49 (by simp)).2 [93] (by simp) (by simp)⟩

/-- The same lines in the other order. -/
example (input : Bytes) : ∃ out, Parses (.mk (firstTok 40 41 43 49) []) input out :=
  (C156_order_matters 40 41 43 49 (by simp)).1 input

/-! ### The usual grammar of expressions -/

/-- `F: o E c | x` (libs/asts/domain/grammars/token.go:3-56). -/
def factorTok (o c x : UInt8) : Token := .mk "F" [.mk [one o, ref "E", one c], .mk [one x]] []

/-- `T: T m F | F` (libs/asts/domain/grammars/token.go:3-56). -/
def termTok (o c m x : UInt8) : Token :=
  .mk "T" [.mk [ref "T", one m, .element 1 (some 1) (.token (factorTok o c x))], .mk [.element 1 (some 1) (.token (factorTok o c x))]] []

/-- `E: E p T | T` (libs/asts/domain/grammars/token.go:3-56). -/
def sumsTok (o c p m x : UInt8) : Token :=
  .mk "E" [.mk [ref "E", one p, .element 1 (some 1) (.token (termTok o c m x))], .mk [.element 1 (some 1) (.token (termTok o c m x))]] []

theorem sums_leftSet (o c p m x : UInt8) :
    LeftSet (fun t => t = sumsTok o c p m x ∨ t = termTok o c m x ∨ t = factorTok o c x) := by
  refine ⟨?_, ?_, ?_⟩
  · rintro t u (rfl | rfl | rfl) (rfl | rfl | rfl) h <;> first | rfl | simp [sumsTok, termTok, factorTok, Token.name] at h
  · rintro t (rfl | rfl | rfl) i g hg
    · match i, hg with
      | 0, hg =>
        cases hg
        exact .inr ⟨rfl, 1, some 1, _, rfl, by simp [guardedFrom, Container.isRecursive]⟩
      | 1, hg =>
        cases hg
        exact .inl (by simp [lineGuarded, GLine.containers, guardedFrom, Container.isRecursive])
      | i + 2, hg => simp [sumsTok, Token.lines] at hg
    · match i, hg with
      | 0, hg =>
        cases hg
        exact .inr ⟨rfl, 1, some 1, _, rfl, by simp [guardedFrom, Container.isRecursive]⟩
      | 1, hg =>
        cases hg
        exact .inl (by simp [lineGuarded, GLine.containers, guardedFrom, Container.isRecursive])
      | i + 2, hg => simp [termTok, Token.lines] at hg
    · match i, hg with
      | 0, hg =>
        cases hg
        exact .inl (by simp [lineGuarded, GLine.containers, guardedFrom, Container.isRecursive, Container.mustOccur])
      | 1, hg =>
        cases hg
        exact .inl (by simp [lineGuarded, GLine.containers, guardedFrom, Container.isRecursive])
      | i + 2, hg => simp [factorTok, Token.lines] at hg
  · rintro t (rfl | rfl | rfl) g hg cc hcc
    · simp only [sumsTok, Token.lines, List.mem_cons, List.not_mem_nil, or_false] at hg
      rcases hg with rfl | rfl <;> simp only [GLine.containers, List.mem_cons, List.not_mem_nil, or_false] at hcc
      · rcases hcc with rfl | rfl | rfl
        · trivial
        · trivial
        · exact .inr (.inl rfl)
      · subst hcc; exact .inr (.inl rfl)
    · simp only [termTok, Token.lines, List.mem_cons, List.not_mem_nil, or_false] at hg
      rcases hg with rfl | rfl <;> simp only [GLine.containers, List.mem_cons, List.not_mem_nil, or_false] at hcc
      · rcases hcc with rfl | rfl | rfl
        · trivial
        · trivial
        · exact .inr (.inr rfl)
      · subst hcc; exact .inr (.inr rfl)
    · simp only [factorTok, Token.lines, List.mem_cons, List.not_mem_nil, or_false] at hg
      rcases hg with rfl | rfl <;> simp only [GLine.containers, List.mem_cons, List.not_mem_nil, or_false] at hcc
      · rcases hcc with rfl | rfl | rfl <;> trivial
      · subst hcc; trivial

/-- `E: E + T | T`, `T: T * F | F`, `F: ( E ) | 1` ends on every text. -/
example (input : Bytes) : ∃ out, Parses (.mk (sumsTok 40 41 43 42 49) []) input out :=
  (C156_first_alternative (sums_leftSet 40 41 43 42 49) _ (.inl rfl) (by simp [Grammar.channels]) input).1

end Rodkina.Props
