import Verif.AstLeftLemmas
import Verif.AstCostLemmas

/-!
# Two left-recursive rules, on every input
-/

namespace Rodkina.Ast.Cost

open CM

/-- The rule `E: E p x | x`: a token of two lines (libs/asts/domain/grammars/token.go:3-56, line.go:3-20) whose elements occur exactly once
(libs/asts/domain/grammars/element.go:7-49); the reference is by name (libs/asts/domain/grammars/elementcontent.go:7-92). -/
def sumTok (p x : UInt8) : Token := .mk "E" [.mk [ref "E", one p, one x], .mk [one x]] []

/-- The rule `E: E p x | E m x | x`, likewise (libs/asts/domain/grammars/token.go:3-56). -/
def exprTok (p m x : UInt8) : Token := .mk "E" [.mk [ref "E", one p, one x], .mk [ref "E", one m, one x], .mk [one x]] []

/-- A tree with these bytes and this rest. -/
def Reads (t : Tree) (b r : Bytes) : Prop := t.isSuccessful = true ∧ t.bytes false = b ∧ t.remaining = r

theorem operand_ok (i : Nat) (x : UInt8) : (TLine.mk i (.mk [one x]) false [hit x]).isSuccessful = true := rfl

theorem sum_ok (i : Nat) (t : Tree) (v x : UInt8) :
    (TLine.mk i (.mk [ref "E", one v, one x]) false [got "E" t, hit v, hit x]).isSuccessful = true := rfl

theorem reads_operand (tok : Token) (i : Nat) (x : UInt8) (r : Bytes) :
    Reads (.mk tok (mkBlock [.mk i (.mk [one x]) false [hit x]]) [] r) [x] r := by
  refine ⟨rfl, ?_, rfl⟩
  simp [mkBlock, operand_ok, Tree.bytes, Block.bytesWith, TLine.bytes, elementsBytes, TElement.bytes, contentsBytes, TContent.bytes]

theorem reads_sum (tok : Token) (i : Nat) {t : Tree} {b r' : Bytes} (h : Reads t b r') (v x : UInt8) (r : Bytes) :
    Reads (.mk tok (mkBlock [.mk i (.mk [ref "E", one v, one x]) false [got "E" t, hit v, hit x]]) [] r) (b ++ [v, x]) r := by
  refine ⟨rfl, ?_, rfl⟩
  simp [mkBlock, sum_ok, Tree.bytes, Block.bytesWith, TLine.bytes, elementsBytes, TElement.bytes, contentsBytes, TContent.bytes, h.2.1]

/-- A call that reads these bytes, leaves this rest and empties the map of tokens under way. -/
def Gets (o : Out Tree × Stk × Nat) (b r : Bytes) : Prop := ∃ t k, o = (.ok t, [], k) ∧ Reads t b r

/-- A call that fails and empties the map. -/
def Fails (o : Out Tree × Stk × Nat) : Prop := ∃ k, o = (.err, [], k)

section
variable {rec : Rec} {tok : Token} {p d : Bytes} {gs : List GLine} {i : Nat}

/-- The last alternative, `x`, on a map that has at most the entry of the token. -/
theorem last_line (hname : tok.name = "E") (x : UInt8) {s : Stk} (hs : s = [] ∨ ∃ ls, s = [(tok.name, ⟨tok, ls⟩)] ∧ ls.lookup i ≠ some d) :
    (∃ r, d = x :: r ∧ ∃ ls, blk rec tok p d i [.mk [one x]] s = (.ok ([.mk i (.mk [one x]) false [hit x]], r), [(tok.name, ⟨tok, ls⟩)])) ∨
    ((∀ r, d ≠ x :: r) ∧ ∃ ls, blk rec tok p d i [.mk [one x]] s = (.ok ([], d), [(tok.name, ⟨tok, ls⟩)])) := by
  have hrec : ∃ ls, (recordLine tok i d s).2 = [(tok.name, ⟨tok, ls⟩)] := by
    rcases hs with rfl | ⟨ls, rfl, _⟩
    · exact ⟨_, record_nil _ _ _⟩
    · exact ⟨_, record_one _ _ _ _⟩
  have hno : (alreadyTried tok i d s).1 = .ok false := by
    rcases hs with rfl | ⟨ls, rfl, h⟩
    · exact tried_nil _ _ _
    · exact tried_one _ h
  obtain ⟨ls, hls⟩ := hrec
  rcases lineLoop_operand (rec := rec) x p p d [(tok.name, ⟨tok, ls⟩)] with ⟨r, k, hd, hl⟩ | ⟨hd, k, hl⟩
  · exact .inl ⟨r, hd, ls, blk_ok _ hno (by rw [hls]; exact hl) (operand_ok _ _)⟩
  · refine .inr ⟨hd, ls, ?_⟩
    rw [blk_err _ hno (by rw [hls]; exact hl)]
    rfl

/-- A left-recursive alternative whose inner call reads `b` and leaves `r'`. -/
theorem left_line_ok (hname : tok.name = "E") {v x : UInt8} {s : Stk} {ls : List (Nat × Bytes)} {b r' : Bytes} (hd : d ≠ [])
    (hno : (alreadyTried tok i d s).1 = .ok false) (hls : (recordLine tok i d s).2 = [(tok.name, ⟨tok, ls⟩)])
    (hr : Gets (rec tok c0 p d [(tok.name, ⟨tok, ls⟩)]) b r') :
    (∃ r, r' = v :: x :: r ∧ ∃ l, blk rec tok p d i (.mk [ref "E", one v, one x] :: gs) s = (.ok ([l], r), []) ∧
      Reads (.mk tok (mkBlock [l]) [] r) (b ++ [v, x]) r) ∨
    ((∀ r, r' ≠ v :: x :: r) ∧ blk rec tok p d i (.mk [ref "E", one v, one x] :: gs) s = blk rec tok p d (i + 1) gs []) := by
  obtain ⟨t, k, hr, ht⟩ := hr
  have hl := lineLoop_ref_ok (name := "E") p [one v, one x] [] p d hd (hname ▸ recursive_one tok ls) hr ht.1
  rw [ht.2.2] at hl
  rcases lineLoop_two (rec := rec) v x p ([] ++ [got "E" t]) d r' [] with ⟨r, k', hr', h2⟩ | ⟨hr', k', h2⟩
  · rw [h2] at hl
    exact .inl ⟨r, hr', _, blk_ok gs hno (by rw [hls]; exact hl) (sum_ok i t v x), reads_sum tok i ht v x r⟩
  · rw [h2] at hl
    exact .inr ⟨hr', blk_err gs hno (by rw [hls]; exact hl)⟩

theorem left_line_err (hname : tok.name = "E") {v x : UInt8} {s : Stk} {ls : List (Nat × Bytes)} (hd : d ≠ [])
    (hno : (alreadyTried tok i d s).1 = .ok false) (hls : (recordLine tok i d s).2 = [(tok.name, ⟨tok, ls⟩)])
    (hr : Fails (rec tok c0 p d [(tok.name, ⟨tok, ls⟩)])) :
    blk rec tok p d i (.mk [ref "E", one v, one x] :: gs) s = blk rec tok p d (i + 1) gs [] := by
  obtain ⟨k, hr⟩ := hr
  obtain ⟨k', hl⟩ := lineLoop_ref_err (name := "E") p [one v, one x] [] p d (hname ▸ recursive_one tok ls) hr hd
  exact blk_err gs hno (by rw [hls]; exact hl)

theorem left_line_nil {v x : UInt8} {s : Stk} {ls : List (Nat × Bytes)}
    (hno : (alreadyTried tok i [] s).1 = .ok false) (hls : (recordLine tok i [] s).2 = [(tok.name, ⟨tok, ls⟩)]) :
    blk rec tok p [] i (.mk [ref "E", one v, one x] :: gs) s = blk rec tok p [] (i + 1) gs [(tok.name, ⟨tok, ls⟩)] := by
  obtain ⟨k', hl⟩ := lineLoop_ref_nil (rec := rec) "E" p [one v, one x] [] p [(tok.name, ⟨tok, ls⟩)]
  exact blk_err gs hno (by rw [hls]; exact hl)

theorem gets_of {s s1 s' : Stk} {l : TLine} {b r : Bytes} (he : (enter tok s).2 = s1)
    (h : blk rec tok p d 0 tok.lines s1 = (.ok ([l], r), s')) (hs : s' = [] ∨ ∃ e, s' = [(tok.name, e)])
    (ht : Reads (.mk tok (mkBlock [l]) [] r) b r) : Gets (tokenBody rec tok c0 p d s) b r := by
  obtain ⟨k, h⟩ := tokenBody_one he h
  refine ⟨_, k, ?_, ht⟩
  rcases hs with rfl | ⟨e, rfl⟩
  · exact h
  · rwa [del_one] at h

theorem fails_of {s s1 s' : Stk} (he : (enter tok s).2 = s1) (h : blk rec tok p d 0 tok.lines s1 = (.ok ([], d), s'))
    (hs : s' = [] ∨ ∃ e, s' = [(tok.name, e)]) : Fails (tokenBody rec tok c0 p d s) := by
  obtain ⟨k, h⟩ := tokenBody_none he h
  refine ⟨k, ?_⟩
  rcases hs with rfl | ⟨e, rfl⟩
  · exact h
  · rwa [del_one] at h

/-- When the lines come down to the last one. -/
theorem last_token (hname : tok.name = "E") {x : UInt8} {s s1 s2 : Stk} (he : (enter tok s).2 = s1)
    (h : blk rec tok p d 0 tok.lines s1 = blk rec tok p d i [.mk [one x]] s2)
    (hs : s2 = [] ∨ ∃ ls, s2 = [(tok.name, ⟨tok, ls⟩)] ∧ ls.lookup i ≠ some d) :
    (∃ r, d = x :: r ∧ Gets (tokenBody rec tok c0 p d s) [x] r) ∨ ((∀ r, d ≠ x :: r) ∧ Fails (tokenBody rec tok c0 p d s)) := by
  rcases last_line (rec := rec) (p := p) hname x hs with ⟨r, hd, ls, h2⟩ | ⟨hd, ls, h2⟩
  · exact .inl ⟨r, hd, gets_of he (h.trans h2) (.inr ⟨_, rfl⟩) (reads_operand _ _ _ _)⟩
  · exact .inr ⟨hd, fails_of he (h.trans h2) (.inr ⟨_, rfl⟩)⟩

end

/-! ## `E: E p x | x` -/

section
variable (p x : UInt8)

theorem sum_inner (n : Nat) (pr d : Bytes) :
    (∃ r, d = x :: r ∧ Gets (token (n + 1) (sumTok p x) c0 pr d [((sumTok p x).name, ⟨sumTok p x, [(0, d)]⟩)]) [x] r) ∨
    ((∀ r, d ≠ x :: r) ∧ Fails (token (n + 1) (sumTok p x) c0 pr d [((sumTok p x).name, ⟨sumTok p x, [(0, d)]⟩)])) :=
  last_token rfl (enter_one _ _) (blk_skip _ (tried_yes _ (by simp))) (.inr ⟨_, rfl, by simp [List.lookup]⟩)

theorem sum_root (n : Nat) (pr d : Bytes) :
    (∃ r, d = x :: p :: x :: r ∧ Gets (token (n + 2) (sumTok p x) c0 pr d []) [x, p, x] r) ∨
    (∃ r, d = x :: r ∧ (∀ r', r ≠ p :: x :: r') ∧ Gets (token (n + 2) (sumTok p x) c0 pr d []) [x] r) ∨
    ((∀ r, d ≠ x :: r) ∧ Fails (token (n + 2) (sumTok p x) c0 pr d [])) := by
  have he : (enter (sumTok p x) []).2 = [((sumTok p x).name, ⟨sumTok p x, []⟩)] := rfl
  have hno : (alreadyTried (sumTok p x) 0 d [((sumTok p x).name, ⟨sumTok p x, []⟩)]).1 = .ok false := tried_one _ (by simp [List.lookup])
  by_cases hd : d = []
  · subst hd
    right; right
    rcases last_token (rec := token (n + 1)) (p := pr) (d := []) (i := 1) (x := x) (tok := sumTok p x) (s := []) rfl he
      (left_line_nil hno (record_one _ _ _ _)) (.inr ⟨_, rfl, by simp [List.lookup]⟩) with ⟨r, h, _⟩ | h
    · simp at h
    · exact h
  · rcases sum_inner p x n pr d with ⟨r, hr, h⟩ | ⟨hr, h⟩
    · rcases left_line_ok (gs := [.mk [one x]]) (v := p) (x := x) rfl hd hno (record_one _ _ _ _) h with
        ⟨r2, hr2, l, hl, ht⟩ | ⟨hr2, hl⟩
      · exact .inl ⟨r2, by rw [hr, hr2], gets_of he hl (.inl rfl) ht⟩
      · rcases last_token (s := []) (tok := sumTok p x) rfl he hl (.inl rfl) with ⟨r3, hr3, h3⟩ | ⟨h3, _⟩
        · refine .inr (.inl ⟨r3, hr3, ?_, h3⟩)
          rw [hr] at hr3
          injection hr3 with _ hr3
          subst hr3
          exact hr2
        · exact absurd hr (h3 r)
    · have hl := left_line_err (gs := [.mk [one x]]) (v := p) (x := x) rfl hd hno (record_one _ _ _ _) h
      rcases last_token (s := []) (tok := sumTok p x) rfl he hl (.inl rfl) with ⟨r3, hr3, _⟩ | h3
      · exact absurd hr3 (hr r3)
      · exact .inr (.inr h3)

end

/-! ## `E: E p x | E m x | x` -/

section
variable (p m x : UInt8)

/-- Both left-recursive alternatives under way here. -/
theorem expr_base (n : Nat) (pr d : Bytes) (ls : List (Nat × Bytes)) (h0 : ls.lookup 0 = some d) (h1 : ls.lookup 1 = some d)
    (h2 : ls.lookup 2 ≠ some d) :
    (∃ r, d = x :: r ∧ Gets (token (n + 1) (exprTok p m x) c0 pr d [((exprTok p m x).name, ⟨exprTok p m x, ls⟩)]) [x] r) ∨
    ((∀ r, d ≠ x :: r) ∧ Fails (token (n + 1) (exprTok p m x) c0 pr d [((exprTok p m x).name, ⟨exprTok p m x, ls⟩)])) :=
  last_token rfl (enter_one _ _) ((blk_skip _ (tried_yes _ h0)).trans (blk_skip _ (tried_yes _ h1))) (.inr ⟨_, rfl, h2⟩)

/-- The first alternative under way here. -/
theorem expr_inner (n : Nat) (pr d : Bytes) (hd : d ≠ []) :
    (∃ r, d = x :: m :: x :: r ∧
      Gets (token (n + 2) (exprTok p m x) c0 pr d [((exprTok p m x).name, ⟨exprTok p m x, [(0, d)]⟩)]) [x, m, x] r) ∨
    (∃ r, d = x :: r ∧ (∀ r', r ≠ m :: x :: r') ∧
      Gets (token (n + 2) (exprTok p m x) c0 pr d [((exprTok p m x).name, ⟨exprTok p m x, [(0, d)]⟩)]) [x] r) ∨
    ((∀ r, d ≠ x :: r) ∧ Fails (token (n + 2) (exprTok p m x) c0 pr d [((exprTok p m x).name, ⟨exprTok p m x, [(0, d)]⟩)])) := by
  have he := enter_one (exprTok p m x) [(0, d)]
  have hno : (alreadyTried (exprTok p m x) 1 d [((exprTok p m x).name, ⟨exprTok p m x, [(0, d)]⟩)]).1 = .ok false := tried_one _ (by simp [List.lookup])
  have hsk : blk (token (n + 1)) (exprTok p m x) pr d 0 (exprTok p m x).lines [((exprTok p m x).name, ⟨exprTok p m x, [(0, d)]⟩)]
      = blk (token (n + 1)) (exprTok p m x) pr d 1 [.mk [ref "E", one m, one x], .mk [one x]]
        [((exprTok p m x).name, ⟨exprTok p m x, [(0, d)]⟩)] := blk_skip _ (tried_yes _ (by simp))
  rcases expr_base p m x n pr d [(1, d), (0, d)] (by simp [List.lookup]) (by simp) (by simp [List.lookup]) with ⟨r, hr, h⟩ | ⟨hr, h⟩
  · rcases left_line_ok (gs := [.mk [one x]]) (v := m) (x := x) rfl hd hno (record_one _ _ _ _) h with
      ⟨r2, hr2, l, hl, ht⟩ | ⟨hr2, hl⟩
    · exact .inl ⟨r2, by rw [hr, hr2], gets_of he (hsk.trans hl) (.inl rfl) ht⟩
    · rcases last_token rfl he (hsk.trans hl) (.inl rfl) with ⟨r3, hr3, h3⟩ | ⟨h3, _⟩
      · refine .inr (.inl ⟨r3, hr3, ?_, h3⟩)
        rw [hr] at hr3
        injection hr3 with _ hr3
        subst hr3
        exact hr2
      · exact absurd hr (h3 r)
  · have hl := left_line_err (gs := [.mk [one x]]) (v := m) (x := x) rfl hd hno (record_one _ _ _ _) h
    rcases last_token rfl he (hsk.trans hl) (.inl rfl) with ⟨r3, hr3, _⟩ | h3
    · exact absurd hr3 (hr r3)
    · exact .inr (.inr h3)

/-- The second alternative under way here, the first one not: it is entered again and again. -/
theorem expr_again (d : Bytes) (hd : d ≠ []) (h : ∀ r, d ≠ x :: p :: x :: r) (n : Nat) : ∀ pr : Bytes,
    (token n (exprTok p m x) c0 pr d [((exprTok p m x).name, ⟨exprTok p m x, [(1, d)]⟩)]).1 = .oof := by
  induction n with
  | zero => intro pr; rfl
  | succ n ih =>
    intro pr
    apply tokenBody_oof
    rw [enter_one]
    show (blk (token n) (exprTok p m x) pr d 0 [.mk [ref "E", one p, one x], .mk [ref "E", one m, one x], .mk [one x]]
      [((exprTok p m x).name, ⟨exprTok p m x, [(1, d)]⟩)]).1 = .oof
    have hno : (alreadyTried (exprTok p m x) 0 d [((exprTok p m x).name, ⟨exprTok p m x, [(1, d)]⟩)]).1 = .ok false :=
      tried_one _ (by simp [List.lookup])
    have hsecond : (blk (token n) (exprTok p m x) pr d 1 [.mk [ref "E", one m, one x], .mk [one x]] []).1 = .oof := by
      refine blk_oof _ (tried_nil _ _ _) ?_
      rw [record_nil]
      exact lineLoop_ref_oof _ _ _ _ _ hd (recursive_one (exprTok p m x) _) (ih _)
    cases n with
    | zero =>
      refine blk_oof _ hno ?_
      rw [record_one]
      exact lineLoop_ref_oof _ _ _ _ _ hd (recursive_one (exprTok p m x) _) rfl
    | succ n =>
      rcases expr_base p m x n pr d [(0, d), (1, d)] (by simp) (by simp [List.lookup]) (by simp [List.lookup]) with ⟨r, hr, hb⟩ | ⟨hr, hb⟩
      · rcases left_line_ok (gs := [.mk [ref "E", one m, one x], .mk [one x]]) (v := p) (x := x) rfl hd hno (record_one _ _ _ _) hb with
          ⟨r2, hr2, l, hl, ht⟩ | ⟨hr2, hl⟩
        · exact absurd (hr.trans (by rw [hr2])) (h r2)
        · rw [hl]; exact hsecond
      · rw [left_line_err (gs := [.mk [ref "E", one m, one x], .mk [one x]]) (v := p) (x := x) rfl hd hno (record_one _ _ _ _) hb]
        exact hsecond

/-- The root. -/
theorem expr_root (hpm : p ≠ m) (d : Bytes) :
    (∃ r, d = x :: p :: x :: r ∧ ∀ n pr, Gets (token (n + 3) (exprTok p m x) c0 pr d []) [x, p, x] r) ∨
    (∃ r, d = x :: m :: x :: p :: x :: r ∧ ∀ n pr, Gets (token (n + 3) (exprTok p m x) c0 pr d []) [x, m, x, p, x] r) ∨
    (d = [] ∧ ∀ n pr, Fails (token (n + 3) (exprTok p m x) c0 pr d [])) ∨
    (d ≠ [] ∧ (∀ r, d ≠ x :: p :: x :: r) ∧ (∀ r, d ≠ x :: m :: x :: p :: x :: r) ∧
      ∀ n pr, (token n (exprTok p m x) c0 pr d []).1 = .oof) := by
  have he : (enter (exprTok p m x) []).2 = [((exprTok p m x).name, ⟨exprTok p m x, []⟩)] := rfl
  have hno : (alreadyTried (exprTok p m x) 0 d [((exprTok p m x).name, ⟨exprTok p m x, []⟩)]).1 = .ok false := tried_one _ (by simp)
  by_cases hd : d = []
  · subst hd
    refine .inr (.inr (.inl ⟨rfl, fun n pr => ?_⟩))
    have hl : blk (token (n + 2)) (exprTok p m x) pr [] 0 (exprTok p m x).lines [((exprTok p m x).name, ⟨exprTok p m x, []⟩)]
        = blk (token (n + 2)) (exprTok p m x) pr [] 2 [.mk [one x]] [((exprTok p m x).name, ⟨exprTok p m x, [(1, []), (0, [])]⟩)] :=
      (left_line_nil hno (record_one _ _ _ _)).trans
        (left_line_nil (tried_one _ (by simp [List.lookup])) (record_one _ _ _ _))
    rcases last_token (s := []) (x := x) rfl he hl (.inr ⟨_, rfl, by simp [List.lookup]⟩) with ⟨r, h, _⟩ | h
    · simp at h
    · exact h.2
  · by_cases h1 : ∃ r, d = x :: p :: x :: r
    · obtain ⟨r, rfl⟩ := h1
      refine .inl ⟨r, rfl, fun n pr => ?_⟩
      rcases expr_inner p m x n pr _ hd with ⟨r1, hr1, _⟩ | ⟨r1, hr1, _, hi⟩ | ⟨hr1, _⟩
      · simp at hr1
        exact absurd hr1.1 hpm
      · simp at hr1
        subst hr1
        rcases left_line_ok (gs := [.mk [ref "E", one m, one x], .mk [one x]]) (v := p) (x := x) rfl hd hno (record_one _ _ _ _) hi with
          ⟨r2, hr2, l, hl, ht⟩ | ⟨hr2, hl⟩
        · simp at hr2
          subst hr2
          exact gets_of he hl (.inl rfl) ht
        · exact absurd rfl (hr2 r)
      · exact absurd rfl (hr1 _)
    · have h1' : ∀ r, d ≠ x :: p :: x :: r := fun r hr => h1 ⟨r, hr⟩
      by_cases h2 : ∃ r, d = x :: m :: x :: p :: x :: r
      · obtain ⟨r, rfl⟩ := h2
        refine .inr (.inl ⟨r, rfl, fun n pr => ?_⟩)
        rcases expr_inner p m x n pr _ hd with ⟨r1, hr1, hi⟩ | ⟨r1, hr1, hr1', hi⟩ | ⟨hr1, _⟩
        · simp at hr1
          subst hr1
          rcases left_line_ok (gs := [.mk [ref "E", one m, one x], .mk [one x]]) (v := p) (x := x) rfl hd hno (record_one _ _ _ _) hi with
            ⟨r2, hr2, l, hl, ht⟩ | ⟨hr2, hl⟩
          · simp at hr2
            subst hr2
            exact gets_of he hl (.inl rfl) ht
          · exact absurd rfl (hr2 r)
        · simp at hr1
          subst hr1
          exact absurd rfl (hr1' _)
        · exact absurd rfl (hr1 _)
      · have h2' : ∀ r, d ≠ x :: m :: x :: p :: x :: r := fun r hr => h2 ⟨r, hr⟩
        refine .inr (.inr (.inr ⟨hd, h1', h2', fun n pr => ?_⟩))
        -- the second alternative, once the first one has failed
        have hsecond : ∀ n, (blk (token n) (exprTok p m x) pr d 1 [.mk [ref "E", one m, one x], .mk [one x]] []).1 = .oof := by
          intro n
          refine blk_oof _ (tried_nil _ _ _) ?_
          rw [record_nil]
          exact lineLoop_ref_oof _ _ _ _ _ hd (recursive_one (exprTok p m x) _) (expr_again p m x d hd h1' n _)
        -- enough to look at large depths
        have hbig : ∀ n, (token (n + 3) (exprTok p m x) c0 pr d []).1 = .oof := by
          intro n
          apply tokenBody_oof
          rw [he]
          change (blk (token (n + 2)) (exprTok p m x) pr d 0 [.mk [ref "E", one p, one x], .mk [ref "E", one m, one x], .mk [one x]]
            [((exprTok p m x).name, ⟨exprTok p m x, []⟩)]).1 = .oof
          rcases expr_inner p m x n pr d hd with ⟨r1, hr1, hi⟩ | ⟨r1, hr1, _, hi⟩ | ⟨_, hi⟩
          · rcases left_line_ok (gs := [.mk [ref "E", one m, one x], .mk [one x]]) (v := p) (x := x) rfl hd hno (record_one _ _ _ _) hi with
              ⟨r2, hr2, _⟩ | ⟨_, hl⟩
            · exact absurd (by rw [hr1, hr2]) (h2' r2)
            · rw [hl]; exact hsecond _
          · rcases left_line_ok (gs := [.mk [ref "E", one m, one x], .mk [one x]]) (v := p) (x := x) rfl hd hno (record_one _ _ _ _) hi with
              ⟨r2, hr2, _⟩ | ⟨_, hl⟩
            · exact absurd (by rw [hr1, hr2]) (h1' r2)
            · rw [hl]; exact hsecond _
          · rw [left_line_err (gs := [.mk [ref "E", one m, one x], .mk [one x]]) (v := p) (x := x) rfl hd hno (record_one _ _ _ _) hi]
            exact hsecond _
        have hmono := hbig n
        by_contra hne
        have key := congrFun (congrFun (congrFun (congrFun (congrFun (erase_token n) (exprTok p m x)) c0) pr) d) []
        have key3 := congrFun (congrFun (congrFun (congrFun (congrFun (erase_token (n + 3)) (exprTok p m x)) c0) pr) d) []
        have e1 : (Ast.token n (exprTok p m x) c0 pr d []).1 = (token n (exprTok p m x) c0 pr d []).1 := (congrArg Prod.fst key).symm
        have e3 : (Ast.token (n + 3) (exprTok p m x) c0 pr d []).1 = (token (n + 3) (exprTok p m x) c0 pr d []).1 :=
          (congrArg Prod.fst key3).symm
        have := Ast.token_mono (n := n) (m := n + 3) (by omega) (t := exprTok p m x) (ctx := c0) (prev := pr) (cur := d) (s := []) (by rw [e1]; exact hne)
        rw [← e3, this, e1] at hmono
        exact hne hmono

end

end Rodkina.Ast.Cost
