import Verif.AstLeftTwo

/-!
# Runs of a rule with two left-recursive alternatives in front
-/

namespace Rodkina.Ast

open M

section
variable {ctx : Ctx} {sk : Bytes → Bytes} {name : String} {t1 t2 : List Container} {base : List GLine} {K N : Nat}

/-- What is assumed of the parts of the rule. -/
structure TwoOK (sk : Bytes → Bytes) (ctx : Ctx) (name : String) (t1 t2 : List Container) (base : List GLine) (K N : Nat) : Prop where
  rev : ctx.reverse = false
  peg : ∀ n, N ≤ n → PegRec n K ctx sk
  skip : ∀ n, N ≤ n → SkipIs (token n) ctx.channels sk
  le : K ≤ N
  lines : PegLines [name] base
  ne : base ≠ []
  depth : ∀ g ∈ base, lineD g ≤ K
  c1 : PegConts [name] t1
  c2 : PegConts [name] t2
  d1 : containersD t1 ≤ K
  d2 : containersD t2 ≤ K
  n1 : sameNames (selfRef name :: t1)
  n2 : sameNames (selfRef name :: t2)

/-- The lines of `base`, before skipping. -/
def rawBase (sk : Bytes → Bytes) (name : String) (i : Nat) (base : List GLine) (d : Bytes) : Option (Shape × Bytes) :=
  (pegLines sk i base d).map (fun x => (.node name x.1 x.2.1, x.2.2))

/-- A left-recursive alternative, before skipping. -/
def rawTail (sk : Bytes → Bytes) (name : String) (i : Nat) (tail : List Container) (r : Option (Shape × Bytes)) : Option (Shape × Bytes) :=
  r.bind (fun x => (pegSeq sk tail x.2).map (fun y => (.node name i (.mk name [x.1] :: y.1), y.2)))

theorem rawBase_map (i : Nat) (d : Bytes) : (rawBase sk name i base d).map (fun x => (x.1, sk x.2)) = pegBase sk name i base d := by
  unfold rawBase pegBase
  cases pegLines sk i base d <;> rfl

theorem rawTail_map (i : Nat) (tail : List Container) (r : Option (Shape × Bytes)) :
    (rawTail sk name i tail r).map (fun x => (x.1, sk x.2)) = thenTail sk name i tail r := by
  unfold rawTail thenTail
  cases r with
  | none => rfl
  | some x => cases h : pegSeq sk tail x.2 <;> simp [h]

theorem rawTail_none {i : Nat} {tail : List Container} {r : Option (Shape × Bytes)} :
    rawTail sk name i tail r = none ↔ thenTail sk name i tail r = none := by
  rw [← rawTail_map]
  simp

variable (h : TwoOK sk ctx name t1 t2 base K N)
include h

/-- The alternatives `base`. -/
theorem two_base {n : Nat} (hn : N ≤ n) (prev cur : Bytes) {s : Stk}
    (hs : s = [] ∨ ∃ ls, s = [(name, ⟨leftTok2 name t1 t2 base, ls⟩)] ∧ ∀ p ∈ ls, p.1 < 2) :
    LinesRun (leftTok2 name t1 t2 base) (blockLoop (token n) (leftTok2 name t1 t2 base) ctx prev cur 2 base [] s) cur
      (rawBase sk name 2 base cur) := by
  have key : ∀ ls : List (Nat × Bytes), (∀ p ∈ ls, p.1 < 2) → LinesRun (leftTok2 name t1 t2 base)
      (blockLoop (token n) (leftTok2 name t1 t2 base) ctx prev cur 2 base [] [(name, ⟨leftTok2 name t1 t2 base, ls⟩)]) cur
      (rawBase sk name 2 base cur) := fun ls hl =>
    linesRun_of (run_blockLoop (path := []) (h.peg n hn) (h.skip n hn) h.rev (Nat.le_trans h.le hn) (keysIn_nil [])
      (tok := leftTok2 name t1 t2 base) (by simp) prev cur base 2 (fun g hg => mem_pegLines h.lines hg) h.depth [] ls hl)
  rcases hs with rfl | ⟨ls, rfl, hl⟩
  · obtain ⟨g, gs, hg⟩ := List.exists_cons_of_ne_nil h.ne
    have hfresh : blockLoop (token n) (leftTok2 name t1 t2 base) ctx prev cur 2 base [] []
        = blockLoop (token n) (leftTok2 name t1 t2 base) ctx prev cur 2 base [] [(name, ⟨leftTok2 name t1 t2 base, []⟩)] := by
      have := block_fresh (ctx := ctx) (rec := token n) (tok := leftTok2 name t1 t2 base) prev cur 2 g gs []
      rw [← hg] at this
      exact this
    rw [hfresh]
    exact key [] (by simp)
  · exact key ls hl

omit h in
theorem two_enter (ls : List (Nat × Bytes)) :
    enter (leftTok2 name t1 t2 base) [(name, ⟨leftTok2 name t1 t2 base, ls⟩)] = (.ok (), [(name, ⟨leftTok2 name t1 t2 base, ls⟩)]) := by
  simp [enter, leftTok2, Token.name, Stk.get]

/-- Both left-recursive alternatives under way. -/
theorem two_both {n : Nat} (hn : N ≤ n) (prev cur : Bytes) {ls : List (Nat × Bytes)} (h0 : ls.lookup 0 = some cur)
    (h1 : ls.lookup 1 = some cur) (hl : ∀ p ∈ ls, p.1 < 2) :
    Found (token (n + 1) (leftTok2 name t1 t2 base) ctx prev cur [(name, ⟨leftTok2 name t1 t2 base, ls⟩)]) []
      (pegBase sk name 2 base cur) := by
  rw [← rawBase_map]
  refine close_lines (h.skip n hn) (two_enter ls) ?_
  have e0 := block_tried (ctx := ctx) (rec := token n) (tok := leftTok2 name t1 t2 base) (prev := prev) h0 (.mk (selfRef name :: t1))
    (.mk (selfRef name :: t2) :: base)
  have e1 := block_tried (ctx := ctx) (rec := token n) (tok := leftTok2 name t1 t2 base) (prev := prev) h1 (.mk (selfRef name :: t2)) base
  have := two_base h hn prev cur (.inr ⟨ls, rfl, hl⟩)
  rw [show blockLoop (token n) (leftTok2 name t1 t2 base) ctx prev cur 0 (leftTok2 name t1 t2 base).lines []
    [(name, ⟨leftTok2 name t1 t2 base, ls⟩)] = _ from e0.trans e1]
  exact this

/-- The first alternative under way: the base, then the second tail at most once. -/
theorem two_first {n : Nat} (hn : N ≤ n) (prev cur : Bytes) (hne : cur ≠ []) :
    Found (token (n + 2) (leftTok2 name t1 t2 base) ctx prev cur [(name, ⟨leftTok2 name t1 t2 base, [(0, cur)]⟩)]) []
      ((thenTail sk name 1 t2 (pegBase sk name 2 base cur)).or (pegBase sk name 2 base cur)) := by
  have hn1 : N ≤ n + 1 := by omega
  have e0 : blockLoop (token (n + 1)) (leftTok2 name t1 t2 base) ctx prev cur 0 (leftTok2 name t1 t2 base).lines []
      [(name, ⟨leftTok2 name t1 t2 base, [(0, cur)]⟩)] = _ :=
    block_tried (ctx := ctx) (rec := token (n + 1)) (tok := leftTok2 name t1 t2 base) (prev := prev) (by simp) (.mk (selfRef name :: t1))
      (.mk (selfRef name :: t2) :: base)
  have hin := two_both h hn prev cur (ls := [(1, cur), (0, cur)]) (by simp [List.lookup]) (by simp) (by simp)
  have hb := block_left (tok := leftTok2 name t1 t2 base) (h.peg _ hn1) (h.skip _ hn1) h.rev (Nat.le_trans h.le hn1) h.c2 h.d2 h.n2 hne
    (.inr ⟨rfl, by simp [List.lookup]⟩) hin base
  have hraw : rawTail sk name 1 t2 (pegBase sk name 2 base cur) = (pegBase sk name 2 base cur).bind (fun x => (pegSeq sk t2 x.2).map
    (fun y => (Shape.node (leftTok2 name t1 t2 base).name 1 (ShapeElem.mk (leftTok2 name t1 t2 base).name [x.1] :: y.1), y.2))) := rfl
  rw [← hraw] at hb
  cases hr : rawTail sk name 1 t2 (pegBase sk name 2 base cur) with
  | none =>
    rw [hr] at hb
    rw [rawTail_none.mp hr, Option.none_or, ← rawBase_map]
    refine close_lines (h.skip _ hn1) (two_enter _) ?_
    rw [e0, show blockLoop (token (n + 1)) (leftTok2 name t1 t2 base) ctx prev cur (0 + 1) (.mk (selfRef name :: t2) :: base) []
      [((leftTok2 name t1 t2 base).name, ⟨leftTok2 name t1 t2 base, [(0, cur)]⟩)] = _ from hb]
    exact two_base h hn1 prev cur (.inl rfl)
  | some z =>
    rw [hr] at hb
    rw [← rawTail_map, hr, Option.map_some, Option.some_or]
    have := close_lines (s1 := [(name, ⟨leftTok2 name t1 t2 base, [(0, cur)]⟩)]) (prev := prev) (cur := cur)
      (s := [(name, ⟨leftTok2 name t1 t2 base, [(0, cur)]⟩)]) (r := some z) (h.skip _ hn1) (two_enter _) (by rw [e0]; exact hb)
    exact this

/-- The second alternative under way and the first one not: the base, then the first tail, once. -/
theorem two_second_ok {n : Nat} (hn : N ≤ n) (prev cur : Bytes) (hne : cur ≠ []) {w : Shape × Bytes}
    (hw : thenTail sk name 0 t1 (pegBase sk name 2 base cur) = some w) :
    Found (token (n + 2) (leftTok2 name t1 t2 base) ctx prev cur [(name, ⟨leftTok2 name t1 t2 base, [(1, cur)]⟩)]) [] (some w) := by
  have hn1 : N ≤ n + 1 := by omega
  have hin := two_both h hn prev cur (ls := [(0, cur), (1, cur)]) (by simp) (by simp [List.lookup]) (by simp)
  have hb := block_left (tok := leftTok2 name t1 t2 base) (h.peg _ hn1) (h.skip _ hn1) h.rev (Nat.le_trans h.le hn1) h.c1 h.d1 h.n1 hne
    (.inr ⟨rfl, by simp [List.lookup]⟩) hin (.mk (selfRef name :: t2) :: base)
  have hraw : rawTail sk name 0 t1 (pegBase sk name 2 base cur) = (pegBase sk name 2 base cur).bind (fun x => (pegSeq sk t1 x.2).map
    (fun y => (Shape.node (leftTok2 name t1 t2 base).name 0 (ShapeElem.mk (leftTok2 name t1 t2 base).name [x.1] :: y.1), y.2))) := rfl
  rw [← hraw] at hb
  rw [← rawTail_map] at hw
  rw [← hw]
  refine close_lines (h.skip _ hn1) (two_enter _) ?_
  cases hr : rawTail sk name 0 t1 (pegBase sk name 2 base cur) with
  | none => rw [hr] at hw; simp at hw
  | some z =>
    rw [hr] at hb
    exact hb

omit h in
/-- A line that fails at one depth fails or runs out at every depth. -/
theorem line_fails {n i : Nat} {g : GLine} {prev cur : Bytes} {s : Stk} (hm : ∀ n, ∃ m, n ≤ m ∧ line (token m) i g ctx prev cur s = (.err, [])) :
    (line (token n) i g ctx prev cur s).1 = .oof ∨ line (token n) i g ctx prev cur s = (.err, []) := by
  obtain ⟨m, hnm, hl⟩ := hm n
  have hle : RecLe (token n) (token m) := fun t ctx prev cur s => by
    by_cases hc : (token n t ctx prev cur s).1 = .oof
    · exact .inl hc
    · exact .inr (token_mono hnm hc).symm
  rcases le_line hle i g ctx prev cur s with h1 | h1
  · exact .inl h1
  · exact .inr (h1.trans hl)

/-- … or without end. -/
theorem two_second_oof (cur : Bytes) (hne : cur ≠ []) (hw : thenTail sk name 0 t1 (pegBase sk name 2 base cur) = none) (n : Nat) :
    ∀ prev, (token n (leftTok2 name t1 t2 base) ctx prev cur [(name, ⟨leftTok2 name t1 t2 base, [(1, cur)]⟩)]).1 = .oof := by
  induction n with
  | zero => intro prev; rfl
  | succ n ih =>
    intro prev
    refine token_oof_of (two_enter _) ?_
    have hfree : Free (leftTok2 name t1 t2 base) 0 cur [(name, ⟨leftTok2 name t1 t2 base, [(1, cur)]⟩)] [(1, cur)] :=
      .inr ⟨rfl, by simp [List.lookup]⟩
    have hline : ∀ n, ∃ m, n ≤ m ∧ line (token m) 0 (.mk (selfRef name :: t1)) ctx prev cur
        [(name, ⟨leftTok2 name t1 t2 base, [(0, cur), (1, cur)]⟩)] = (.err, []) := by
      intro n
      have hn1 : N ≤ N + n + 1 := by omega
      have hin := two_both h (n := N + n) (by omega) prev cur (ls := [(0, cur), (1, cur)]) (by simp) (by simp [List.lookup]) (by simp)
      have hs : recursiveToken name [(name, ⟨leftTok2 name t1 t2 base, [(0, cur), (1, cur)]⟩)]
          = (.ok (leftTok2 name t1 t2 base), [(name, ⟨leftTok2 name t1 t2 base, [(0, cur), (1, cur)]⟩)]) := by
        simp [recursiveToken, Stk.get]
      have hl := run_leftLine (h.peg _ hn1) (h.skip _ hn1) h.rev (Nat.le_trans h.le hn1) h.c1 h.d1 hne hs hin 0
      refine ⟨N + n + 1, by omega, ?_⟩
      unfold thenTail at hw
      cases hb : pegBase sk name 2 base cur with
      | none => rw [hb] at hl; exact hl
      | some x =>
        rw [hb] at hl hw
        simp only [Option.bind_some, Option.map_eq_none_iff] at hw
        simp only [Option.bind_some, hw, Option.map_none] at hl
        exact hl
    change (blockLoop (token n) (leftTok2 name t1 t2 base) ctx prev cur 0 (.mk (selfRef name :: t1) :: .mk (selfRef name :: t2) :: base) []
      [(name, ⟨leftTok2 name t1 t2 base, [(1, cur)]⟩)]).1 = .oof
    rw [block_step h.rev hfree, bind_apply]
    unfold M.attempt
    rw [show (leftTok2 name t1 t2 base).name = name from rfl]
    rcases line_fails (n := n) hline with ho | ho
    · obtain ⟨s', ho⟩ : ∃ s', line (token n) 0 (.mk (selfRef name :: t1)) ctx prev cur
        [(name, ⟨leftTok2 name t1 t2 base, [(0, cur), (1, cur)]⟩)] = (.oof, s') := ⟨_, Prod.ext ho rfl⟩
      rw [ho]
    · rw [ho]
      simp only [lineNext]
      exact block_left_oof (tok := leftTok2 name t1 t2 base) h.rev hne (.inl ⟨rfl, rfl⟩) (ih prev) base

omit h in
theorem two_start : enter (leftTok2 name t1 t2 base) [] = (.ok (), [(name, ⟨leftTok2 name t1 t2 base, []⟩)]) := rfl

/-- The whole rule, first alternative. -/
theorem two_root_first {n : Nat} (hn : N ≤ n) (prev cur : Bytes) (hne : cur ≠ []) {x : Shape × Bytes}
    (hx : thenTail sk name 0 t1 ((thenTail sk name 1 t2 (pegBase sk name 2 base cur)).or (pegBase sk name 2 base cur)) = some x) :
    Found (token (n + 3) (leftTok2 name t1 t2 base) ctx prev cur []) [] (some x) := by
  have hn1 : N ≤ n + 2 := by omega
  have hb := block_left (tok := leftTok2 name t1 t2 base) (h.peg _ hn1) (h.skip _ hn1) h.rev (Nat.le_trans h.le hn1) h.c1 h.d1 h.n1 hne
    (.inr ⟨rfl, by simp⟩) (two_first h hn prev cur hne) (.mk (selfRef name :: t2) :: base)
  rw [← rawTail_map] at hx
  obtain ⟨z, hz, hzx⟩ := Option.map_eq_some_iff.mp hx
  unfold rawTail at hz
  rw [show (leftTok2 name t1 t2 base).name = name from rfl, hz] at hb
  have := close_lines (h.skip _ hn1) (s := []) two_start hb
  rwa [Option.map_some, hzx] at this

/-- The first alternative fails. -/
theorem two_root_next {n : Nat} (hn : N ≤ n) (prev cur : Bytes) (hne : cur ≠ [])
    (hx : thenTail sk name 0 t1 ((thenTail sk name 1 t2 (pegBase sk name 2 base cur)).or (pegBase sk name 2 base cur)) = none) :
    blockLoop (token (n + 2)) (leftTok2 name t1 t2 base) ctx prev cur 0 (leftTok2 name t1 t2 base).lines []
      [(name, ⟨leftTok2 name t1 t2 base, []⟩)]
      = blockLoop (token (n + 2)) (leftTok2 name t1 t2 base) ctx prev cur 1 (.mk (selfRef name :: t2) :: base) [] [] := by
  have hn1 : N ≤ n + 2 := by omega
  have hb := block_left (tok := leftTok2 name t1 t2 base) (h.peg _ hn1) (h.skip _ hn1) h.rev (Nat.le_trans h.le hn1) h.c1 h.d1 h.n1 hne
    (.inr ⟨rfl, by simp⟩) (two_first h hn prev cur hne) (.mk (selfRef name :: t2) :: base)
  have hz := rawTail_none.mpr hx
  unfold rawTail at hz
  rw [show (leftTok2 name t1 t2 base).name = name from rfl, hz] at hb
  exact hb

/-- The whole rule, when its first alternative fails and the first tail follows the base. -/
theorem two_root_second {n : Nat} (hn : N ≤ n) (prev cur : Bytes) (hne : cur ≠ [])
    (hx : thenTail sk name 0 t1 ((thenTail sk name 1 t2 (pegBase sk name 2 base cur)).or (pegBase sk name 2 base cur)) = none)
    {w : Shape × Bytes} (hw : thenTail sk name 0 t1 (pegBase sk name 2 base cur) = some w) :
    Found (token (n + 3) (leftTok2 name t1 t2 base) ctx prev cur []) []
      ((thenTail sk name 1 t2 (some w)).or (pegBase sk name 2 base cur)) := by
  have hn1 : N ≤ n + 2 := by omega
  have hnext := two_root_next h hn prev cur hne hx
  have hb := block_left (tok := leftTok2 name t1 t2 base) (s := []) (ls := []) (h.peg _ hn1) (h.skip _ hn1) h.rev (Nat.le_trans h.le hn1)
    h.c2 h.d2 h.n2 hne (.inl ⟨rfl, rfl⟩) (two_second_ok h hn prev cur hne hw) base
  have hraw : rawTail sk name 1 t2 (some w) = (some w).bind (fun x => (pegSeq sk t2 x.2).map
    (fun y => (Shape.node (leftTok2 name t1 t2 base).name 1 (ShapeElem.mk (leftTok2 name t1 t2 base).name [x.1] :: y.1), y.2))) := rfl
  rw [← hraw] at hb
  cases hr : rawTail sk name 1 t2 (some w) with
  | none =>
    rw [hr] at hb
    rw [rawTail_none.mp hr, Option.none_or, ← rawBase_map]
    refine close_lines (h.skip _ hn1) two_start ?_
    rw [hnext, show blockLoop (token (n + 2)) (leftTok2 name t1 t2 base) ctx prev cur 1 (.mk (selfRef name :: t2) :: base) [] [] = _ from hb]
    exact two_base h hn1 prev cur (.inl rfl)
  | some z =>
    rw [hr] at hb
    rw [← rawTail_map, hr, Option.map_some, Option.some_or]
    have := close_lines (s1 := [(name, ⟨leftTok2 name t1 t2 base, []⟩)]) (prev := prev) (cur := cur) (s := []) (r := some z)
      (h.skip _ hn1) two_start (by rw [hnext]; exact hb)
    exact this

/-- The whole rule, when the first tail does not follow the base. -/
theorem two_root_oof (prev cur : Bytes) (hne : cur ≠ [])
    (hx : thenTail sk name 0 t1 ((thenTail sk name 1 t2 (pegBase sk name 2 base cur)).or (pegBase sk name 2 base cur)) = none)
    (hw : thenTail sk name 0 t1 (pegBase sk name 2 base cur) = none) (n : Nat) :
    (token n (leftTok2 name t1 t2 base) ctx prev cur []).1 = .oof := by
  have hbig : (token (N + n + 3) (leftTok2 name t1 t2 base) ctx prev cur []).1 = .oof := by
    refine token_oof_of two_start ?_
    rw [two_root_next h (by omega) prev cur hne hx]
    exact block_left_oof (tok := leftTok2 name t1 t2 base) h.rev hne (.inl ⟨rfl, rfl⟩) (two_second_oof h cur hne hw _ prev) base
  by_contra hc
  have := token_mono (m := N + n + 3) (by omega) hc
  rw [this] at hbig
  exact hc hbig

/-- Nothing to read. -/
theorem two_root_nil {n : Nat} (hn : N ≤ n) (prev : Bytes) : Found (token (n + 1) (leftTok2 name t1 t2 base) ctx prev [] []) [] none := by
  have hz : (rawBase sk name 2 base []).map (fun x => (x.1, sk x.2)) = none := by simp [rawBase, pegLines_nil]
  rw [← hz]
  refine close_lines (h.skip n hn) two_start ?_
  have hl : ∀ i t ls, line (token n) i (.mk (selfRef name :: t)) ctx prev [] [(name, ⟨leftTok2 name t1 t2 base, ls⟩)]
      = (.err, [(name, ⟨leftTok2 name t1 t2 base, ls⟩)]) := fun i t ls => rfl
  change LinesRun _ (blockLoop (token n) (leftTok2 name t1 t2 base) ctx prev [] 0 (.mk (selfRef name :: t1) :: .mk (selfRef name :: t2) :: base) []
      [(name, ⟨leftTok2 name t1 t2 base, []⟩)]) _ _
  have f0 : Free (leftTok2 name t1 t2 base) 0 [] [(name, ⟨leftTok2 name t1 t2 base, []⟩)] [] := .inr ⟨rfl, by simp⟩
  have f1 : Free (leftTok2 name t1 t2 base) 1 [] [(name, ⟨leftTok2 name t1 t2 base, [(0, [])]⟩)] [(0, [])] :=
    .inr ⟨rfl, by simp [List.lookup]⟩
  rw [block_step h.rev f0, bind_apply]
  rw [show (leftTok2 name t1 t2 base).name = name from rfl]
  simp only [M.attempt, hl, lineNext]
  rw [block_step h.rev f1, bind_apply]
  rw [show (leftTok2 name t1 t2 base).name = name from rfl]
  simp only [M.attempt, hl, lineNext]
  exact two_base h hn prev [] (.inr ⟨_, rfl, by simp⟩)

end

theorem twoOK {sk : Bytes → Bytes} {name : String} {t1 t2 : List Container} {base : List GLine} {chs : List Channel} {N : Nat}
    (hsk : ∀ m, N ≤ m → SkipIs (token m) chs sk) (hb0 : base ≠ []) (hb : PegLines [name] base) (h1 : PegConts [name] t1)
    (h2 : PegConts [name] t2) (n1 : sameNames (selfRef name :: t1)) (n2 : sameNames (selfRef name :: t2)) :
    TwoOK sk ⟨none, chs, false⟩ name t1 t2 base (linesD base + containersD t1 + containersD t2)
      (N + (linesD base + containersD t1 + containersD t2)) :=
  ⟨rfl, fun n hn => peg_token (ctx := ⟨none, chs, false⟩) rfl hsk _ n hn, fun n hn => hsk n (by omega), by omega, hb, hb0,
    fun g hg => by have := linesD_mem hg; omega, h1, h2, by omega, by omega, n1, n2⟩

theorem agrees_of_found {g : Grammar} {input : Bytes} {n : Nat} {r : Option (Shape × Bytes)}
    (h : Found (token n g.root ⟨none, g.channels, false⟩ [] input []) [] r) : Agrees g input r := by
  unfold Found at h
  unfold Agrees
  cases r with
  | none =>
    rcases h with h | ⟨t, h, hs⟩
    · exact .inl ⟨trivial, n, by unfold execute; rw [h]⟩
    · exact .inr ⟨t, ⟨trivial, n, by unfold execute; rw [h]⟩, hs⟩
  | some x =>
    obtain ⟨t, h, hs, h2, h3⟩ := h
    exact ⟨t, ⟨trivial, n, by unfold execute; rw [h]⟩, hs, h2, h3⟩

end Rodkina.Ast
