import Verif.AstCostBound
import Verif.AstCostLower
import Verif.AstDepth
import Verif.AstRecProps

/-!
# How deep the parser nests (C151) and how long it takes (C152)
-/

namespace Rodkina.Props

open Rodkina.Ast Rodkina.Ast.Cost

/-! ## C151: nesting -/

/-- `D` calls of `token` inside one another are enough on this input. -/
def NestsWithin (g : Grammar) (input : Bytes) (D : Nat) : Prop := ∀ n, D ≤ n → execute n g input ≠ .oof

theorem nestsWithin_iff (g : Grammar) (input : Bytes) (D : Nat) : NestsWithin g input D ↔ execute D g input ≠ .oof := by
  refine ⟨fun h => h D (Nat.le_refl _), fun h n hn => ?_⟩
  unfold execute at h ⊢
  rw [token_mono hn h]
  exact h

theorem deep_run {tok : Token} {o y : UInt8} {gs : List GLine} (ht : tok.lines = .mk [one o, ref tok.name, one y] :: gs) (n : Nat) :
    ∀ (p d : Bytes) (s : Stk), d ≠ [] → Clear tok (List.replicate n o ++ d) s →
      (Cost.token n tok c0 p (List.replicate n o ++ d) s).1 = .oof := by
  induction n with
  | zero => intro p d s _ _; rfl
  | succ n ih =>
    intro p d s hd hs
    obtain ⟨ls, he, hl⟩ := enter_clear hs
    rw [List.replicate_succ, List.cons_append] at hl ⊢
    apply tokenBody_oof
    rw [he, ht]
    refine block_oof _ _ (tried_one _ (lookup_longer hl 0)) ?_
    rw [record_one]
    show (Cost.lineLoop _ c0 p [one o, ref tok.name, one y] _ _).1 = .oof
    rw [lineLoop_one_hit]
    refine lineLoop_ref_oof _ _ _ _ _ (by simp [hd]) (recursive_one tok _) (ih _ _ _ hd (Or.inr ⟨_, rfl, ?_⟩))
    intro q hq
    rcases List.mem_cons.mp hq with rfl | hq
    · simp
    · have := hl q hq
      simp only [List.length_cons] at this
      omega

theorem execute_deep {g : Grammar} {o y : UInt8} {gs : List GLine} (hc : g.channels = [])
    (ht : g.root.lines = .mk [one o, ref g.root.name, one y] :: gs) (n : Nat) {d : Bytes} (hd : d ≠ []) :
    execute n g (List.replicate n o ++ d) = .oof := by
  rw [← erase_execute, hc]
  exact deep_run ht n [] d [] hd (Or.inl rfl)

/-- **C151 (the part that holds).** In grammars whose references by name come after something that must occur, the calls of the parser
nest at most `(length + 1) · D` deep, where `D` depends on the grammar alone.  In grammars without references by name `D` is enough for
every input. -/
theorem C151_nesting_partial (g : Grammar) :
    (g.All lineGuarded → ∀ input, NestsWithin g input ((input.length + 1) * grammarX 0 g)) ∧
    (g.All lineFlat → ∀ input, NestsWithin g input (grammarX 0 g)) := by
  refine ⟨fun hg input => ?_, fun hg input n hn => (steps_le hg input n).1 hn⟩
  have := (nestsWithin_iff _ _ _).mpr (execute_terminates hg input)
  exact fun n hn => this n (Nat.le_trans (grammarX_linear _ _) hn)

/-- Words of letters between blanks: `A: B+ | B '.'`, `B: 'x'+`, blanks skipped. -/
def letters : Grammar :=
  .mk (.mk "A" [.mk [.element 1 none (.token (.mk "B" [.mk [.element 1 none (.value "x" 120)]] []))],
    .mk [.element 1 (some 1) (.token (.mk "B" [.mk [.element 1 none (.value "x" 120)]] [])), one 46]] [])
    [.mk (.mk "blank" [.mk [one 32]] []) none none]

theorem letters_flat : letters.All lineFlat := by
  simp [letters, Grammar.All_iff, Token.All_iff, Channel.All_iff, Grammar.root, Grammar.channels, Token.lines, GLine.containers, lineFlat,
    Container.isRecursive, Container.All, Content.All, Channel.token, Channel.previous, Channel.next, optAll]

theorem brackets_guarded (o x c : UInt8) : (brackets o x c).All lineGuarded := by
  simp [brackets, Grammar.All_iff, Token.All_iff, Grammar.root, Grammar.channels, Token.lines, GLine.containers, lineGuarded, guardedFrom,
    byteC, Container.isRecursive, Container.mustOccur, Container.All, Content.All]

example (input : Bytes) : NestsWithin letters input 3 := (C151_nesting_partial letters).2 letters_flat input

example (input : Bytes) : NestsWithin (brackets 40 120 41) input ((input.length + 1) * 1) :=
  (C151_nesting_partial _).1 (brackets_guarded 40 120 41) input

/-- **C151 (what does not hold).** With `T: ( T ) | x` the calls nest deeper than the text does: no depth is enough for every text, although
every such text is accepted. -/
theorem C151_nesting_grows (o x c : UInt8) (hox : o ≠ x) :
    (∀ n, Succeeds (brackets o x c) (nestedText o x c n) (nestedText o x c n) [] ∧ ¬ NestsWithin (brackets o x c) (nestedText o x c n) n) ∧
    ¬ ∃ D, ∀ input, NestsWithin (brackets o x c) input D := by
  have h : ∀ n, ¬ NestsWithin (brackets o x c) (nestedText o x c n) n := by
    intro n hn
    refine hn n (Nat.le_refl _) ?_
    have := execute_deep (g := brackets o x c) (o := o) (y := c) rfl rfl n (d := x :: List.replicate n c) (by simp)
    rw [← this]
    simp [nestedText]
  refine ⟨fun n => ⟨?_, h n⟩, fun ⟨D, hD⟩ => h D (hD _)⟩
  have := (C126_nested_text o x c hox _ (Or.inl rfl)).1 n []
  rwa [List.append_nil] at this

/-! ## C152: steps -/

/-- `Execute` ends, after `k` steps: calls of `token` and turns of loops. -/
def Takes (g : Grammar) (input : Bytes) (k : Nat) : Prop := ∃ n, execute n g input ≠ .oof ∧ steps n g input = k

/-- `S: o S a | o S b | x`. -/
def twice (o x a b : UInt8) : Grammar :=
  .mk (.mk "S" [.mk [one o, ref "S", one a], .mk [one o, ref "S", one b], .mk [one x]] []) []

/-- `o … o x b … b`. -/
def twin (o x b : UInt8) : Nat → Bytes
  | 0 => [x]
  | n + 1 => o :: (twin o x b n ++ [b])

theorem twin_length (o x b : UInt8) (n : Nat) : (twin o x b n).length = 2 * n + 1 := by
  induction n with
  | zero => rfl
  | succ n ih => simp [twin, ih]; omega

theorem twin_ne_nil (o x b : UInt8) (n : Nat) : twin o x b n ≠ [] := by cases n <;> simp [twin]

theorem twice_run {o x a b : UInt8} (hox : o ≠ x) (hab : a ≠ b) (n m : Nat) :
    ∀ (p rest : Bytes) (s : Stk), Clear (twice o x a b).root (twin o x b n ++ rest) s →
      ∃ t k, Cost.token (n + 1 + m) (twice o x a b).root c0 p (twin o x b n ++ rest) s = (.ok t, [], k) ∧ t.isSuccessful = true ∧
        t.remaining = rest ∧ 2 ^ n ≤ k := by
  induction n with
  | zero =>
    intro p rest s hs
    obtain ⟨ls, he, hl⟩ := enter_clear hs
    generalize hd : twin o x b 0 ++ rest = d at *
    have hd' : d = x :: rest := hd.symm
    have h0 := lookup_longer hl
    have b1 := block_err (rec := Cost.token m) (tok := (twice o x a b).root) (p := p) (d := d) (idx := 0)
      (g := .mk [one o, ref "S", one a]) (s := [((twice o x a b).root.name, ⟨(twice o x a b).root, ls⟩)])
      (s' := [((twice o x a b).root.name, ⟨(twice o x a b).root, (0, d) :: ls⟩)])
      [.mk [one o, ref "S", one b], .mk [one x]] [] (tried_one _ (h0 0))
      (by rw [record_one]; subst hd'; exact lineLoop_one_miss hox _ _ _ _ _ _)
    have b2 := block_err (rec := Cost.token m) (tok := (twice o x a b).root) (p := p) (d := d) (idx := 1)
      (g := .mk [one o, ref "S", one b]) (s := [((twice o x a b).root.name, ⟨(twice o x a b).root, (0, d) :: ls⟩)])
      (s' := [((twice o x a b).root.name, ⟨(twice o x a b).root, (1, d) :: (0, d) :: ls⟩)])
      [.mk [one x]] [] (tried_one _ (by simpa [List.lookup_cons] using h0 1))
      (by rw [record_one]; subst hd'; exact lineLoop_one_miss hox _ _ _ _ _ _)
    have b3 := block_ok (rec := Cost.token m) (tok := (twice o x a b).root) (p := p) (d := d) (idx := 2)
      (g := .mk [one x]) (s := [((twice o x a b).root.name, ⟨(twice o x a b).root, (1, d) :: (0, d) :: ls⟩)])
      (s' := [((twice o x a b).root.name, ⟨(twice o x a b).root, (2, d) :: (1, d) :: (0, d) :: ls⟩)]) (k := 3)
      [] [] (es := [hit x]) (p' := d) (d' := rest) (tried_one _ (by simpa [List.lookup_cons] using h0 2))
      (by rw [record_one]; subst hd'; exact lineLoop_one_hit _ _ _ _ _ _ _) rfl
    rw [b3] at b2
    rw [b2] at b1
    have h := tokenBody_run (twice o x a b).root p d s (by rw [he]; exact b1) (by simp)
    rw [del_one] at h
    have hfuel : 0 + 1 + m = m + 1 := by omega
    rw [hfuel]
    exact ⟨_, _, h, rfl, rfl, by omega⟩
  | succ n ih =>
    intro p rest s hs
    obtain ⟨ls, he, hl⟩ := enter_clear hs
    have hd' : twin o x b (n + 1) ++ rest = o :: (twin o x b n ++ b :: rest) := by simp [twin]
    rw [hd'] at hl ⊢
    have hfuel : n + 1 + 1 + m = n + 1 + m + 1 := by omega
    rw [hfuel]
    generalize hrec : Cost.token (n + 1 + m) = rec at *
    generalize hd : o :: (twin o x b n ++ b :: rest) = d at *
    have h0 := lookup_longer hl
    have hne : twin o x b n ++ b :: rest ≠ [] := by simp
    have hlt : (twin o x b n ++ b :: rest).length < d.length := by rw [← hd]; simp
    obtain ⟨t1, k1, r1, s1, m1, e1⟩ := ih d (b :: rest) [((twice o x a b).root.name, ⟨(twice o x a b).root, (0, d) :: ls⟩)]
      (Or.inr ⟨_, rfl, by
        intro q hq
        rcases List.mem_cons.mp hq with rfl | hq
        · exact hlt
        · exact Nat.lt_trans hlt (hl q hq)⟩)
    obtain ⟨t2, k2, r2, s2, m2, e2⟩ := ih d (b :: rest) [((twice o x a b).root.name, ⟨(twice o x a b).root, [(1, d)]⟩)]
      (Or.inr ⟨_, rfl, by
        intro q hq
        rcases List.mem_cons.mp hq with rfl | hq
        · exact hlt
        · simp at hq⟩)
    have l1 : lineLoop rec c0 p [one o, ref "S", one a] ⟨[], p, d⟩
        [((twice o x a b).root.name, ⟨(twice o x a b).root, (0, d) :: ls⟩)] = (.err, [], 3 + (3 + k1 + 2)) := by
      subst hd
      rw [lineLoop_one_hit, lineLoop_ref_ok (name := "S") _ _ _ _ _ hne (recursive_one (twice o x a b).root _) r1 s1, m1, lineLoop_one_miss hab]
    have l2 : lineLoop rec c0 p [one o, ref "S", one b] ⟨[], p, d⟩
        [((twice o x a b).root.name, ⟨(twice o x a b).root, [(1, d)]⟩)]
          = (.ok ⟨[hit o, got "S" t2, hit b], b :: rest, rest⟩, [], 3 + (3 + k2 + 3)) := by
      subst hd
      rw [lineLoop_one_hit, lineLoop_ref_ok (name := "S") _ _ _ _ _ hne (recursive_one (twice o x a b).root _) r2 s2, m2, lineLoop_one_hit]
      rfl
    have b1 := block_err (rec := rec) (tok := (twice o x a b).root) (p := p) (d := d) (idx := 0)
      (g := .mk [one o, ref "S", one a]) (s := [((twice o x a b).root.name, ⟨(twice o x a b).root, ls⟩)])
      [.mk [one o, ref "S", one b], .mk [one x]] [] (tried_one _ (h0 0)) (by rw [record_one]; exact l1)
    have b2 := block_ok (rec := rec) (tok := (twice o x a b).root) (p := p) (d := d) (idx := 1)
      (g := .mk [one o, ref "S", one b]) (s := [])
      [.mk [one x]] [] (es := [hit o, got "S" t2, hit b]) (p' := b :: rest) (d' := rest) (tried_nil _ _ _)
      (by rw [record_nil]; exact l2) rfl
    rw [b2] at b1
    have h := tokenBody_run (twice o x a b).root p d s (by rw [he]; exact b1) (by simp)
    refine ⟨.mk (twice o x a b).root (mkBlock [.mk 1 (.mk [one o, ref "S", one b]) false [hit o, got "S" t2, hit b]]) [] rest,
      1 + (1 + (3 + (3 + k1 + 2)) + (1 + (3 + (3 + k2 + 3)))), ?_, rfl, rfl, ?_⟩
    · unfold Cost.token
      rw [hrec]
      exact h
    · rw [Nat.pow_succ]
      omega

theorem twin_is (o x b : UInt8) (n : Nat) : twin o x b n = List.replicate n o ++ x :: List.replicate n b := by
  induction n with
  | zero => rfl
  | succ n ih =>
    rw [twin, ih, List.replicate_succ, List.append_assoc]
    have : List.replicate n b ++ [b] = b :: List.replicate n b := by
      rw [← List.replicate_succ, List.replicate_succ']
    rw [List.cons_append, List.cons_append, this, List.replicate_succ]

/-- **C152 (what holds).** Without references by name the steps are at most a polynomial of the length of the input, whose degree and
coefficient depend on the grammar alone. -/
theorem C152_steps_partial (g : Grammar) (hg : g.All lineFlat) :
    (∀ input, ∃ k, Takes g input k) ∧
    ∃ c d, ∀ input k, Takes g input k → k ≤ c * (input.length + 1) ^ d := by
  refine ⟨fun input => ⟨_, grammarX 0 g, (steps_le hg input _).1 (Nat.le_refl _), rfl⟩, ?_⟩
  refine ⟨(37 * max 1 (grammarW g) ^ 4) ^ grammarX 0 g, 3 * grammarX 0 g, ?_⟩
  rintro input k ⟨n, _, rfl⟩
  refine Nat.le_trans (steps_le hg input n).2 ?_
  rw [factor, Nat.mul_pow, ← Nat.pow_mul (input.length + 1)]

example : ∃ c d, ∀ input k, Takes letters input k → k ≤ c * (input.length + 1) ^ d := (C152_steps_partial letters letters_flat).2

theorem two_pow_beats (c d : Nat) : ∃ n, c * (2 * n + 1 + 1) ^ d < 2 ^ n := by
  obtain ⟨i, hi⟩ : ∃ i, i = 2 * d + c + 1 := ⟨_, rfl⟩
  refine ⟨2 ^ (2 * i), ?_⟩
  have h1 : c < 2 ^ c := Nat.lt_two_pow_self
  have h2 : 2 * 2 ^ (2 * i) + 1 + 1 ≤ 2 ^ (2 * i + 2) := by
    have : 1 ≤ 2 ^ (2 * i) := Nat.one_le_two_pow
    rw [Nat.pow_add]
    omega
  have h3 : c * (2 * 2 ^ (2 * i) + 1 + 1) ^ d ≤ 2 ^ c * (2 ^ (2 * i + 2)) ^ d :=
    Nat.mul_le_mul (Nat.le_of_lt h1) (Nat.pow_le_pow_left h2 d)
  refine Nat.lt_of_le_of_lt h3 ?_
  rw [← Nat.pow_mul, ← Nat.pow_add]
  refine Nat.pow_lt_pow_right (by omega) ?_
  have h4 : i + 1 ≤ 2 ^ i := Nat.lt_two_pow_self
  have h5 : 2 ^ (2 * i) = 2 ^ i * 2 ^ i := by rw [← Nat.pow_add]; congr 1; omega
  rw [h5]
  have h6 : (i + 1) * (i + 1) ≤ 2 ^ i * 2 ^ i := Nat.mul_le_mul h4 h4
  refine Nat.lt_of_lt_of_le ?_ h6
  subst hi
  nlinarith

/-- **C152 (what does not hold).** With `S: o S a | o S b | x` the text of `n` bytes `o`, one `x` and `n` bytes `b` is accepted, but only
after `2^n` steps: no polynomial bounds the steps. -/
theorem C152_steps_double (o x a b : UInt8) (hox : o ≠ x) (hab : a ≠ b) :
    (∀ n, (∃ t, Parses (twice o x a b) (twin o x b n) (.ok t) ∧ t.isSuccessful = true ∧ t.remaining = []) ∧
      (∃ k, Takes (twice o x a b) (twin o x b n) k) ∧ ∀ k, Takes (twice o x a b) (twin o x b n) k → 2 ^ n ≤ k) ∧
    ¬ ∃ c d, ∀ input k, Takes (twice o x a b) input k → k ≤ c * (input.length + 1) ^ d := by
  have run : ∀ n m, ∃ t k, Cost.token (n + 1 + m) (twice o x a b).root c0 [] (twin o x b n) [] = (.ok t, [], k) ∧ t.isSuccessful = true ∧
      t.remaining = [] ∧ 2 ^ n ≤ k := by
    intro n m
    have := twice_run hox hab n m [] [] [] (Or.inl rfl)
    rwa [List.append_nil] at this
  have ex : ∀ n m, ∃ t, execute (n + 1 + m) (twice o x a b) (twin o x b n) = .ok t ∧ t.isSuccessful = true ∧ t.remaining = [] ∧
      2 ^ n ≤ steps (n + 1 + m) (twice o x a b) (twin o x b n) := by
    intro n m
    obtain ⟨t, k, h1, h2, h3, h4⟩ := run n m
    refine ⟨t, ?_, h2, h3, ?_⟩
    · rw [← erase_execute]
      exact congrArg Prod.fst h1
    · have : steps (n + 1 + m) (twice o x a b) (twin o x b n) = k := congrArg (fun r => r.2.2) h1
      omega
  have low : ∀ n k, Takes (twice o x a b) (twin o x b n) k → 2 ^ n ≤ k := by
    rintro n k ⟨f, h1, rfl⟩
    have hf : n + 1 ≤ f := by
      apply Nat.lt_of_not_le
      intro hle
      apply h1
      have hd := execute_deep (g := twice o x a b) (o := o) (y := a) rfl rfl f
        (d := List.replicate (n - f) o ++ x :: List.replicate n b) (by simp)
      rw [← hd, ← List.append_assoc, List.replicate_append_replicate, twin_is]
      congr 3
      omega
    obtain ⟨m, rfl⟩ := Nat.exists_eq_add_of_le hf
    obtain ⟨_, _, _, _, h⟩ := ex n m
    exact h
  refine ⟨fun n => ⟨?_, ?_, low n⟩, ?_⟩
  · obtain ⟨t, h1, h2, h3, _⟩ := ex n 0
    exact ⟨t, ⟨trivial, _, h1⟩, h2, h3⟩
  · obtain ⟨t, h1, _, _, _⟩ := ex n 0
    exact ⟨_, _, by rw [h1]; nofun, rfl⟩
  · rintro ⟨c, d, h⟩
    obtain ⟨n, hn⟩ := two_pow_beats c d
    obtain ⟨t, h1, _, _, h4⟩ := ex n 0
    have := h _ _ ⟨n + 1 + 0, by rw [h1]; nofun, rfl⟩
    rw [twin_length] at this
    omega

example (k : Nat) (h : Takes (twice 40 120 65 66) (twin 40 120 66 50) k) : 2 ^ 50 ≤ k :=
  ((C152_steps_double 40 120 65 66 (by decide) (by decide)).1 50).2.2 k h

end Rodkina.Props
