import Verif.AstCostLower
import Verif.AstShippedRun

/-!
# Running left-recursive tokens
-/

namespace Rodkina.Ast.Cost

open CM

section
variable {rec : Rec}

theorem lineLoop_one_nil (v : UInt8) (p0 : Bytes) (cs : List Container) (es : List TElement) (p : Bytes) (s : Stk) :
    ∃ k, lineLoop rec c0 p0 (one v :: cs) ⟨es, p, []⟩ s = (.err, s, k) := ⟨_, rfl⟩

theorem lineLoop_ref_nil (name : String) (p0 : Bytes) (cs : List Container) (es : List TElement) (p : Bytes) (s : Stk) :
    ∃ k, lineLoop rec c0 p0 (ref name :: cs) ⟨es, p, []⟩ s = (.err, s, k) := ⟨_, rfl⟩

theorem lineLoop_ref_err {name : String} {tok : Token} {s s' : Stk} {k : Nat} (p0 : Bytes) (cs : List Container)
    (es : List TElement) (p d : Bytes) (hs : recursiveToken name s = (.ok tok, s)) (hr : rec tok c0 p d s = (.err, s', k)) (hd : d ≠ []) :
    ∃ k', lineLoop rec c0 p0 (ref name :: cs) ⟨es, p, d⟩ s = (.err, s', k') := by
  obtain ⟨b, d', rfl⟩ := List.exists_cons_of_ne_nil hd
  have hv : elementContent rec (.recursive name) c0 p (b :: d') s = (.err, s', 0 + k) := by
    unfold elementContent
    simp only [bind_run, lift_run, hs, hr]
  have he : element rec (.recursive name) c0 p (b :: d') s = (.err, s', 0 + k) := by
    unfold element
    rw [if_neg (by simp), bind_run, hv]
  have hl' : elementLoop rec (.recursive name) (some 1) c0 ((b :: d').length + 1) ⟨[], p, b :: d'⟩ s
      = (.ok ⟨[], p, b :: d'⟩, s', 1 + (0 + k + 0)) := by
    rw [List.length_cons]
    unfold elementLoop
    rw [bind_run, tick_run]
    simp only [List.isEmpty_cons, Bool.false_eq_true, if_false, reachedMax, List.length_nil, Nat.reduceLeDiff, decide_false, bind_run,
      attempt, he, elementNext, pure_run]
  have hst : ∃ k', lineStep rec c0 p0 (ref name) ⟨es, p, b :: d'⟩ s = (.err, s', k') := by
    refine ⟨1 + (0 + k + 0) + 0, ?_⟩
    unfold lineStep
    simp only [bind_run]
    rw [hl']
    rfl
  obtain ⟨k', hst⟩ := hst
  refine ⟨1 + k', ?_⟩
  rw [lineLoop_cons, bind_run, tick_run]
  simp only [bind_run, hst]

/-- An operator and its operand, after what is already there. -/
theorem lineLoop_two (v x : UInt8) (p0 : Bytes) (es : List TElement) (p d : Bytes) (s : Stk) :
    (∃ r k, d = v :: x :: r ∧ lineLoop rec c0 p0 [one v, one x] ⟨es, p, d⟩ s = (.ok ⟨es ++ [hit v] ++ [hit x], x :: r, r⟩, s, k)) ∨
    ((∀ r, d ≠ v :: x :: r) ∧ ∃ k, lineLoop rec c0 p0 [one v, one x] ⟨es, p, d⟩ s = (.err, s, k)) := by
  cases d with
  | nil => exact .inr ⟨by simp, lineLoop_one_nil _ _ _ _ _ _⟩
  | cons a d =>
    by_cases ha : v = a
    · subst ha
      rw [lineLoop_one_hit]
      cases d with
      | nil =>
        obtain ⟨k, h⟩ := lineLoop_one_nil (rec := rec) x p0 [] (es ++ [hit v]) [v] s
        exact .inr ⟨by simp, by rw [h]; exact ⟨_, rfl⟩⟩
      | cons b d =>
        by_cases hb : x = b
        · subst hb
          rw [lineLoop_one_hit]
          exact .inl ⟨d, _, rfl, rfl⟩
        · rw [lineLoop_one_miss hb]
          exact .inr ⟨by intro r h; simp at h; exact hb h.1.symm, _, rfl⟩
    · rw [lineLoop_one_miss ha]
      exact .inr ⟨by intro r h; simp at h; exact ha h.1.symm, _, rfl⟩

/-- One operand. -/
theorem lineLoop_operand (x : UInt8) (p0 : Bytes) (p d : Bytes) (s : Stk) :
    (∃ r k, d = x :: r ∧ lineLoop rec c0 p0 [one x] ⟨[], p, d⟩ s = (.ok ⟨[hit x], x :: r, r⟩, s, k)) ∨
    ((∀ r, d ≠ x :: r) ∧ ∃ k, lineLoop rec c0 p0 [one x] ⟨[], p, d⟩ s = (.err, s, k)) := by
  cases d with
  | nil => exact .inr ⟨by simp, lineLoop_one_nil _ _ _ _ _ _⟩
  | cons a d =>
    by_cases ha : x = a
    · subst ha
      rw [lineLoop_one_hit]
      exact .inl ⟨d, _, rfl, rfl⟩
    · rw [lineLoop_one_miss ha]
      exact .inr ⟨by intro r h; simp at h; exact ha h.1.symm, _, rfl⟩

variable {tok : Token} {p d : Bytes} {idx : Nat} {g : GLine} {s s' : Stk} {k : Nat}

theorem block_skip (gs : List GLine) (acc : List TLine) (hn : (alreadyTried tok idx d s).1 = .ok true) :
    ∃ k, blockLoop rec tok c0 p d idx (g :: gs) acc s
      = ((blockLoop rec tok c0 p d (idx + 1) gs acc s).1, (blockLoop rec tok c0 p d (idx + 1) gs acc s).2.1, k) := by
  have ha : (alreadyTried tok idx d s).2 = s := rfl
  refine ⟨1 + (0 + (blockLoop rec tok c0 p d (idx + 1) gs acc s).2.2), ?_⟩
  rw [blockLoop_cons]
  simp only [bind_run, tick_run, lift_run, hn, ha, if_true]

/-- The loop over the lines, without the steps. -/
abbrev blk (rec : Rec) (tok : Token) (p d : Bytes) (idx : Nat) (gs : List GLine) (s : Stk) : Out (List TLine × Bytes) × Stk :=
  ((blockLoop rec tok c0 p d idx gs [] s).1, (blockLoop rec tok c0 p d idx gs [] s).2.1)

theorem blk_skip (gs : List GLine) (hn : (alreadyTried tok idx d s).1 = .ok true) :
    blk rec tok p d idx (g :: gs) s = blk rec tok p d (idx + 1) gs s := by
  obtain ⟨k, h⟩ := block_skip (rec := rec) (p := p) (g := g) gs [] hn
  simp only [blk, h]

theorem blk_err (gs : List GLine) (hn : (alreadyTried tok idx d s).1 = .ok false)
    (hl : lineLoop rec c0 p g.containers ⟨[], p, d⟩ (recordLine tok idx d s).2 = (.err, s', k)) :
    blk rec tok p d idx (g :: gs) s = blk rec tok p d (idx + 1) gs s' := by
  simp only [blk, block_err gs [] hn hl]

theorem blk_ok (gs : List GLine) {es : List TElement} {p' d' : Bytes} (hn : (alreadyTried tok idx d s).1 = .ok false)
    (hl : lineLoop rec c0 p g.containers ⟨[], p, d⟩ (recordLine tok idx d s).2 = (.ok ⟨es, p', d'⟩, s', k))
    (hs : (TLine.mk idx g false es).isSuccessful = true) :
    blk rec tok p d idx (g :: gs) s = (.ok ([.mk idx g false es], d'), s') := by
  simp only [blk, block_ok gs [] hn hl hs, List.nil_append]

theorem blk_oof (gs : List GLine) (hn : (alreadyTried tok idx d s).1 = .ok false)
    (hl : (lineLoop rec c0 p g.containers ⟨[], p, d⟩ (recordLine tok idx d s).2).1 = .oof) : (blk rec tok p d idx (g :: gs) s).1 = .oof :=
  block_oof gs [] hn hl

theorem tokenBody_none {s1 : Stk} (he : (enter tok s).2 = s1) (h : blk rec tok p d 0 tok.lines s1 = (.ok ([], d), s')) :
    ∃ k, tokenBody rec tok c0 p d s = (.err, s'.del tok.name, k) := by
  have h1 : (blockLoop rec tok c0 p d 0 tok.lines [] s1).1 = .ok ([], d) := congrArg Prod.fst h
  have h2 : (blockLoop rec tok c0 p d 0 tok.lines [] s1).2.1 = s' := congrArg Prod.snd h
  have he1 : (enter tok s).1 = .ok () := by
    unfold enter
    split <;> rfl
  unfold tokenBody
  simp only [bind_run, tick_run, lift_run, he1, thenDelete, he, h1, h2, List.isEmpty_nil, if_true, M.fail]
  exact ⟨_, rfl⟩

theorem tokenBody_one {s1 : Stk} {l : TLine} {d' : Bytes} (he : (enter tok s).2 = s1)
    (h : blk rec tok p d 0 tok.lines s1 = (.ok ([l], d'), s')) :
    ∃ k, tokenBody rec tok c0 p d s = (.ok (.mk tok (mkBlock [l]) [] d'), s'.del tok.name, k) := by
  have h1 : (blockLoop rec tok c0 p d 0 tok.lines [] s1).1 = .ok ([l], d') := congrArg Prod.fst h
  have h2 : (blockLoop rec tok c0 p d 0 tok.lines [] s1).2.1 = s' := congrArg Prod.snd h
  exact ⟨_, tokenBody_run tok p d s (k := (blockLoop rec tok c0 p d 0 tok.lines [] s1).2.2)
    (by rw [he, ← h1, ← h2]) (by simp)⟩

end

theorem tried_yes (tok : Token) {ls : List (Nat × Bytes)} {idx : Nat} {d : Bytes} (h : ls.lookup idx = some d) :
    (alreadyTried tok idx d [(tok.name, ⟨tok, ls⟩)]).1 = .ok true := by
  simp [alreadyTried, Stk.get, h]

theorem enter_one (tok : Token) (ls : List (Nat × Bytes)) :
    (enter tok [(tok.name, ⟨tok, ls⟩)]).2 = [(tok.name, ⟨tok, ls⟩)] := by simp [enter, Stk.get]

end Rodkina.Ast.Cost
