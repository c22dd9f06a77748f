import Verif.AstLeftTwoRun

/-!
# A rule with any number of left-recursive alternatives in front, on inputs that do not begin with the base
-/

namespace Rodkina.Ast

open M

/-- The rule `name: name t₁ | … | name tₖ | base…` (libs/asts/domain/grammars/token.go:3-56, line.go:3-20). -/
def leftTokN (name : String) (tails : List (List Container)) (base : List GLine) : Token :=
  .mk name (tails.map (fun t => .mk (selfRef name :: t)) ++ base) []

/-- The first `i` lines recorded on `cur`, after what is in `l`. -/
def down (cur : Bytes) : Nat → List (Nat × Bytes) → List (Nat × Bytes)
  | 0, l => l
  | i + 1, l => (i, cur) :: down cur i l

theorem down_lookup_lt (cur : Bytes) {i j : Nat} (l : List (Nat × Bytes)) (h : j < i) : (down cur i l).lookup j = some cur := by
  induction i with
  | zero => omega
  | succ i ih =>
    unfold down
    by_cases hj : j = i
    · subst hj; simp
    · have : (j == i) = false := by simpa using hj
      simp only [List.lookup, this]
      exact ih (by omega)

theorem down_lookup_ge (cur : Bytes) {i j : Nat} (l : List (Nat × Bytes)) (h : i ≤ j) : (down cur i l).lookup j = l.lookup j := by
  induction i with
  | zero => rfl
  | succ i ih =>
    unfold down
    have : (j == i) = false := by simp; omega
    simp only [List.lookup, this]
    exact ih (by omega)

theorem down_keys (cur : Bytes) {i k : Nat} (l : List (Nat × Bytes)) (hi : i ≤ k) (hl : ∀ p ∈ l, p.1 < k) : ∀ p ∈ down cur i l, p.1 < k := by
  induction i with
  | zero => exact hl
  | succ i ih =>
    intro p hp
    unfold down at hp
    rcases List.mem_cons.mp hp with rfl | hp
    · exact hi
    · exact ih (by omega) p hp

section
variable {ctx : Ctx} {sk : Bytes → Bytes} {name : String} {tails : List (List Container)} {base : List GLine} {K N : Nat}

/-- What is assumed of the base and of the last two left-recursive alternatives; nothing is assumed of the others. -/
structure ManyOK (sk : Bytes → Bytes) (ctx : Ctx) (name : String) (a b : List Container) (base : List GLine) (K N : Nat) : Prop where
  rev : ctx.reverse = false
  peg : ∀ n, N ≤ n → PegRec n K ctx sk
  skip : ∀ n, N ≤ n → SkipIs (token n) ctx.channels sk
  le : K ≤ N
  lines : PegLines [name] base
  ne : base ≠ []
  depth : ∀ g ∈ base, lineD g ≤ K
  ca : PegConts [name] a
  cb : PegConts [name] b
  da : containersD a ≤ K
  db : containersD b ≤ K
  nb : sameNames (selfRef name :: b)

theorem many_enter (ls : List (Nat × Bytes)) :
    enter (leftTokN name tails base) [(name, ⟨leftTokN name tails base, ls⟩)] = (.ok (), [(name, ⟨leftTokN name tails base, ls⟩)]) := by
  simp [enter, leftTokN, Token.name, Stk.get]

/-- Lines under way are passed over. -/
theorem many_skip {rec : Rec} {prev cur : Bytes} {ls : List (Nat × Bytes)} (pre : List (List Container)) (gs : List GLine) (i : Nat)
    (h : ∀ j, i ≤ j → j < i + pre.length → ls.lookup j = some cur) :
    blockLoop rec (leftTokN name tails base) ctx prev cur i (pre.map (fun t => .mk (selfRef name :: t)) ++ gs) []
      [(name, ⟨leftTokN name tails base, ls⟩)]
      = blockLoop rec (leftTokN name tails base) ctx prev cur (i + pre.length) gs [] [(name, ⟨leftTokN name tails base, ls⟩)] := by
  induction pre generalizing i with
  | nil => rfl
  | cons t pre ih =>
    have e := block_tried (ctx := ctx) (rec := rec) (tok := leftTokN name tails base) (prev := prev) (h i (Nat.le_refl _) (by simp))
      (.mk (selfRef name :: t)) (pre.map (fun t => .mk (selfRef name :: t)) ++ gs)
    rw [List.map_cons, List.cons_append]
    refine Eq.trans e ?_
    have := ih (i + 1) (fun j h1 h2 => h j (by omega) (by simp; omega))
    rw [List.length_cons, show i + (pre.length + 1) = i + 1 + pre.length by omega]
    exact this

variable {a b : List Container} (h : ManyOK sk ctx name a b base K N)
include h

/-- The alternatives `base`. -/
theorem many_base {n : Nat} (hn : N ≤ n) (prev cur : Bytes) {s : Stk}
    (hs : s = [] ∨ ∃ ls, s = [(name, ⟨leftTokN name tails base, ls⟩)] ∧ ∀ p ∈ ls, p.1 < tails.length) :
    LinesRun (leftTokN name tails base) (blockLoop (token n) (leftTokN name tails base) ctx prev cur tails.length base [] s) cur
      (rawBase sk name tails.length base cur) := by
  have key : ∀ ls : List (Nat × Bytes), (∀ p ∈ ls, p.1 < tails.length) → LinesRun (leftTokN name tails base)
      (blockLoop (token n) (leftTokN name tails base) ctx prev cur tails.length base [] [(name, ⟨leftTokN name tails base, ls⟩)]) cur
      (rawBase sk name tails.length base cur) := fun ls hl =>
    linesRun_of (run_blockLoop (path := []) (h.peg n hn) (h.skip n hn) h.rev (Nat.le_trans h.le hn) (keysIn_nil [])
      (tok := leftTokN name tails base) (by simp) prev cur base tails.length (fun g hg => mem_pegLines h.lines hg) h.depth [] ls hl)
  rcases hs with rfl | ⟨ls, rfl, hl⟩
  · obtain ⟨g, gs, hg⟩ := List.exists_cons_of_ne_nil h.ne
    have hfresh : blockLoop (token n) (leftTokN name tails base) ctx prev cur tails.length base [] []
        = blockLoop (token n) (leftTokN name tails base) ctx prev cur tails.length base [] [(name, ⟨leftTokN name tails base, []⟩)] := by
      have := block_fresh (ctx := ctx) (rec := token n) (tok := leftTokN name tails base) prev cur tails.length g gs []
      rw [← hg] at this
      exact this
    rw [hfresh]
    exact key [] (by simp)
  · exact key ls hl

/-- All left-recursive alternatives under way: the base. -/
theorem many_full {n : Nat} (hn : N ≤ n) (prev cur : Bytes) {ls : List (Nat × Bytes)}
    (h1 : ∀ j, j < tails.length → ls.lookup j = some cur) (h2 : ∀ p ∈ ls, p.1 < tails.length) :
    Found (token (n + 1) (leftTokN name tails base) ctx prev cur [(name, ⟨leftTokN name tails base, ls⟩)]) []
      (pegBase sk name tails.length base cur) := by
  rw [← rawBase_map]
  refine close_lines (h.skip n hn) (many_enter ls) ?_
  have e := many_skip (ctx := ctx) (rec := token n) (name := name) (tails := tails) (base := base) (prev := prev) tails base 0
    (fun j _ hj => h1 j (by omega))
  rw [Nat.zero_add] at e
  rw [show blockLoop (token n) (leftTokN name tails base) ctx prev cur 0 (leftTokN name tails base).lines []
    [(name, ⟨leftTokN name tails base, ls⟩)] = _ from e]
  exact many_base h hn prev cur (.inr ⟨ls, rfl, h2⟩)

/-- The alternative before the last, when its tail does not follow. -/
theorem many_line {m : Nat} (hm : N ≤ m) {prev cur : Bytes} (hne : cur ≠ []) {ls : List (Nat × Bytes)} (i : Nat) {r : Option (Shape × Bytes)}
    (hf : Found (token m (leftTokN name tails base) ctx prev cur [(name, ⟨leftTokN name tails base, ls⟩)]) [] r)
    (hr : thenTail sk name i a r = none) :
    line (token m) i (.mk (selfRef name :: a)) ctx prev cur [(name, ⟨leftTokN name tails base, ls⟩)] = (.err, []) := by
  have hs : recursiveToken name [(name, ⟨leftTokN name tails base, ls⟩)]
      = (.ok (leftTokN name tails base), [(name, ⟨leftTokN name tails base, ls⟩)]) := by
    simp [recursiveToken, Stk.get]
  have hl := run_leftLine (h.peg m hm) (h.skip m hm) h.rev (Nat.le_trans h.le hm) h.ca h.da hne hs hf i
  have hz : (r.bind (fun x => (pegSeq sk a x.2).map (fun y => (ShapeElem.mk name [x.1] :: y.1, y.2)))) = none := by
    cases r with
    | none => rfl
    | some x =>
      simp only [thenTail, Option.bind_some, Option.map_eq_none_iff] at hr
      simp [hr]
  rw [hz] at hl
  exact hl

omit h in
/-- A line that fails or runs out of depth, before lines that run out of depth. -/
theorem many_then_oof {n : Nat} (hrev : ctx.reverse = false) {prev cur : Bytes} {ls : List (Nat × Bytes)} {i : Nat} {t : List Container}
    (gs : List GLine) (hfree : ls.lookup i ≠ some cur)
    (hl : ∀ n, ∃ m, n ≤ m ∧ line (token m) i (.mk (selfRef name :: t)) ctx prev cur [(name, ⟨leftTokN name tails base, (i, cur) :: ls⟩)] = (.err, []))
    (hnext : (blockLoop (token n) (leftTokN name tails base) ctx prev cur (i + 1) gs [] []).1 = .oof) :
    (blockLoop (token n) (leftTokN name tails base) ctx prev cur i (.mk (selfRef name :: t) :: gs) []
      [(name, ⟨leftTokN name tails base, ls⟩)]).1 = .oof := by
  have hf : Free (leftTokN name tails base) i cur [(name, ⟨leftTokN name tails base, ls⟩)] ls := .inr ⟨rfl, hfree⟩
  rw [block_step hrev hf, bind_apply]
  unfold M.attempt
  rw [show (leftTokN name tails base).name = name from rfl]
  rcases line_fails (n := n) hl with ho | ho
  · obtain ⟨s', ho⟩ : ∃ s', line (token n) i (.mk (selfRef name :: t)) ctx prev cur
      [(name, ⟨leftTokN name tails base, (i, cur) :: ls⟩)] = (.oof, s') := ⟨_, Prod.ext ho rfl⟩
    rw [ho]
  · rw [ho]
    exact hnext

/-- The last two left-recursive alternatives: the one before the last fails once all the others are recorded, which deletes the entry, and the
last one is then entered anew. -/
theorem many_chain (cur : Bytes) (hne : cur ≠ []) (l : List (Nat × Bytes)) (pre : List (List Container))
    (htails : tails = pre ++ [a, b]) (hl : ∀ j, j ≤ pre.length → l.lookup j ≠ some cur) (n : Nat) (prev : Bytes)
    (hlast : ∀ n, ∃ m, n ≤ m ∧ line (token m) pre.length (.mk (selfRef name :: a)) ctx prev cur
      [(name, ⟨leftTokN name tails base, down cur (pre.length + 1) l⟩)] = (.err, []))
    (hagain : ∀ m, m < n → (token m (leftTokN name tails base) ctx prev cur
      [(name, ⟨leftTokN name tails base, [(pre.length + 1, cur)]⟩)]).1 = .oof) (i : Nat) (hi : i ≤ pre.length) :
    (token n (leftTokN name tails base) ctx prev cur [(name, ⟨leftTokN name tails base, down cur i l⟩)]).1 = .oof := by
  induction n generalizing i with
  | zero => rfl
  | succ n ih =>
    refine token_oof_of (many_enter _) ?_
    have hlines : (leftTokN name tails base).lines = (pre.take i).map (fun t => .mk (selfRef name :: t)) ++
        ((pre.drop i ++ [a, b]).map (fun t => .mk (selfRef name :: t)) ++ base) := by
      rw [← List.append_assoc, ← List.map_append, ← List.append_assoc, List.take_append_drop, ← htails]
      rfl
    have hlen : (pre.take i).length = i := by simp [hi]
    have e := many_skip (ctx := ctx) (rec := token n) (name := name) (tails := tails) (base := base) (prev := prev) (cur := cur)
      (ls := down cur i l) (pre.take i) ((pre.drop i ++ [a, b]).map (fun t => .mk (selfRef name :: t)) ++ base) 0
      (fun j _ hj => down_lookup_lt cur l (by omega))
    rw [hlen, Nat.zero_add, ← hlines] at e
    rw [e]
    have hfree : (down cur i l).lookup i ≠ some cur := by
      rw [down_lookup_ge cur l (Nat.le_refl _)]
      exact hl i hi
    cases hd : pre.drop i with
    | nil =>
      have hip : i = pre.length := by
        have := List.drop_eq_nil_iff.mp hd
        omega
      subst hip
      rw [List.nil_append, List.map_cons, List.map_cons, List.map_nil, List.cons_append]
      refine many_then_oof h.rev _ hfree hlast ?_
      · rw [List.cons_append, List.nil_append]
        exact block_left_oof (tok := leftTokN name tails base) h.rev hne (.inl ⟨rfl, rfl⟩) (hagain n (Nat.lt_succ_self n)) base
    | cons t rest =>
      have hlt : i < pre.length := by
        by_contra hc
        rw [List.drop_eq_nil_iff.mpr (by omega)] at hd
        exact absurd hd (by simp)
      rw [List.cons_append, List.map_cons, List.cons_append]
      exact block_left_oof (tok := leftTokN name tails base) (ls := down cur i l) h.rev hne (.inr ⟨rfl, hfree⟩)
        (ih (fun m hm => hagain m (by omega)) (i + 1) hlt) _

/-- The last alternative under way, and no other: it is entered again and again. -/
theorem many_again (cur : Bytes) (hne : cur ≠ []) (pre : List (List Container)) (htails : tails = pre ++ [a, b])
    (hw : thenTail sk name pre.length a (pegBase sk name tails.length base cur) = none) (prev : Bytes) (n : Nat) :
    (token n (leftTokN name tails base) ctx prev cur [(name, ⟨leftTokN name tails base, [(pre.length + 1, cur)]⟩)]).1 = .oof := by
  induction n using Nat.strong_induction_on with
  | _ n ih =>
    have hk : tails.length = pre.length + 2 := by rw [htails]; simp
    refine many_chain h cur hne [(pre.length + 1, cur)] pre htails ?_ n prev ?_ ih 0 (Nat.zero_le _)
    · intro j hj
      have : (j == pre.length + 1) = false := by simp; omega
      simp [List.lookup, this]
    · intro k
      refine ⟨N + k + 1, by omega, many_line h (by omega) hne _ (many_full h (n := N + k) (by omega) prev cur ?_ ?_) hw⟩
      · intro j hj
        by_cases hj' : j < pre.length + 1
        · exact down_lookup_lt cur _ hj'
        · rw [down_lookup_ge cur _ (by omega), show j = pre.length + 1 by omega]
          simp
      · exact down_keys cur _ (by omega) (by intro p hp; simp at hp; subst hp; simp; omega)

/-- All but the last under way: the base, and the last tail when it follows. -/
theorem many_butlast {n : Nat} (hn : N ≤ n) (prev cur : Bytes) (hne : cur ≠ []) (pre : List (List Container)) (htails : tails = pre ++ [a, b]) :
    Found (token (n + 2) (leftTokN name tails base) ctx prev cur [(name, ⟨leftTokN name tails base, down cur (pre.length + 1) []⟩)]) []
      ((thenTail sk name (pre.length + 1) b (pegBase sk name tails.length base cur)).or (pegBase sk name tails.length base cur)) := by
  have hk : tails.length = pre.length + 2 := by rw [htails]; simp
  have hn1 : N ≤ n + 1 := by omega
  have hlines : (leftTokN name tails base).lines = (pre ++ [a]).map (fun t => .mk (selfRef name :: t)) ++ (.mk (selfRef name :: b) :: base) := by
    rw [show leftTokN name tails base = leftTokN name (pre ++ [a, b]) base by rw [htails]]
    simp [leftTokN, Token.lines]
  have e := many_skip (ctx := ctx) (rec := token (n + 1)) (name := name) (tails := tails) (base := base) (prev := prev) (cur := cur)
    (ls := down cur (pre.length + 1) []) (pre ++ [a]) (.mk (selfRef name :: b) :: base) 0
    (fun j _ hj => down_lookup_lt cur _ (by simpa using hj))
  rw [← hlines, Nat.zero_add, List.length_append, List.length_singleton] at e
  have hfree : Free (leftTokN name tails base) (pre.length + 1) cur [(name, ⟨leftTokN name tails base, down cur (pre.length + 1) []⟩)]
      (down cur (pre.length + 1) []) := .inr ⟨rfl, by rw [down_lookup_ge cur _ (Nat.le_refl _)]; simp⟩
  have hf := many_full h hn prev cur (tails := tails) (ls := down cur (pre.length + 2) []) (fun j hj => down_lookup_lt cur _ (by omega))
    (down_keys cur _ (by omega) (by simp))
  have hb := block_left (tok := leftTokN name tails base) (h.peg _ hn1) (h.skip _ hn1) h.rev (Nat.le_trans h.le hn1) h.cb h.db h.nb hne
    hfree hf base
  have hraw : rawTail sk name (pre.length + 1) b (pegBase sk name tails.length base cur) =
    (pegBase sk name tails.length base cur).bind (fun x => (pegSeq sk b x.2).map
    (fun y => (Shape.node (leftTokN name tails base).name (pre.length + 1) (ShapeElem.mk (leftTokN name tails base).name [x.1] :: y.1), y.2))) := rfl
  rw [← hraw] at hb
  cases hr : rawTail sk name (pre.length + 1) b (pegBase sk name tails.length base cur) with
  | none =>
    rw [hr] at hb
    rw [rawTail_none.mp hr, Option.none_or, ← rawBase_map]
    refine close_lines (h.skip _ hn1) (many_enter _) ?_
    rw [e]
    refine (show blockLoop (token (n + 1)) (leftTokN name tails base) ctx prev cur (pre.length + 1) (.mk (selfRef name :: b) :: base) []
      [(name, ⟨leftTokN name tails base, down cur (pre.length + 1) []⟩)] = _ from hb) ▸ ?_
    have := many_base h hn1 prev cur (tails := tails) (.inl rfl)
    rw [hk] at this ⊢
    exact this
  | some z =>
    rw [hr] at hb
    rw [← rawTail_map, hr, Option.map_some, Option.some_or]
    exact close_lines (r := some z) (h.skip _ hn1) (many_enter _) (by rw [e]; exact hb)

/-- The whole rule. -/
theorem many_root (cur : Bytes) (hne : cur ≠ []) (pre : List (List Container)) (htails : tails = pre ++ [a, b])
    (hx : thenTail sk name pre.length a ((thenTail sk name (pre.length + 1) b (pegBase sk name tails.length base cur)).or
      (pegBase sk name tails.length base cur)) = none)
    (hw : thenTail sk name pre.length a (pegBase sk name tails.length base cur) = none) (prev : Bytes) (n : Nat) :
    (token n (leftTokN name tails base) ctx prev cur []).1 = .oof := by
  have := many_chain h cur hne [] pre htails (by simp) n prev
    (fun k => ⟨N + k + 2, by omega, many_line h (by omega) hne _ (many_butlast h (by omega) prev cur hne pre htails) hx⟩)
    (fun m _ => many_again h cur hne pre htails hw prev m) 0 (Nat.zero_le _)
  cases n with
  | zero => rfl
  | succ n =>
    have he : enter (leftTokN name tails base) [] = (.ok (), [(name, ⟨leftTokN name tails base, []⟩)]) := by
      simp [enter, leftTokN, Token.name, Token.lines, Stk.get, Stk.put, Stk.del]
    unfold token tokenBody at this ⊢
    rw [bind_apply, he]
    rw [bind_apply, many_enter] at this
    exact this

end

theorem manyOK {sk : Bytes → Bytes} {name : String} {a b : List Container} {base : List GLine} {chs : List Channel} {N : Nat}
    (hsk : ∀ m, N ≤ m → SkipIs (token m) chs sk) (hb0 : base ≠ []) (hb : PegLines [name] base) (h1 : PegConts [name] a)
    (h2 : PegConts [name] b) (n2 : sameNames (selfRef name :: b)) :
    ManyOK sk ⟨none, chs, false⟩ name a b base (linesD base + containersD a + containersD b)
      (N + (linesD base + containersD a + containersD b)) :=
  ⟨rfl, fun n hn => peg_token (ctx := ⟨none, chs, false⟩) rfl hsk _ n hn, fun n hn => hsk n (by omega), by omega, hb, hb0,
    fun g hg => by have := linesD_mem hg; omega, h1, h2, by omega, by omega, n2⟩

end Rodkina.Ast
