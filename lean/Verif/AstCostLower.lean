import Verif.AstCostLemmas

/-!
# Running lines with a reference by name, step by step
-/

namespace Rodkina.Ast.Cost

open CM

theorem bind_run {α β : Type} (m : CM α) (f : α → CM β) (s : Stk) :
    (m >>= f) s = match m s with
      | (.ok a, s', k) => ((f a s').1, (f a s').2.1, k + (f a s').2.2)
      | (.err, s', k) => (.err, s', k)
      | (.panic, s', k) => (.panic, s', k)
      | (.oof, s', k) => (.oof, s', k) := rfl

theorem pure_run {α : Type} (a : α) (s : Stk) : (pure a : CM α) s = (.ok a, s, 0) := rfl

theorem tick_run (s : Stk) : tick s = (.ok (), s, 1) := rfl

theorem lift_run {α : Type} (m : M α) (s : Stk) : lift m s = ((m s).1, (m s).2, 0) := rfl

/-- The parameters of a root without channels. -/
abbrev c0 : Ctx := ⟨none, [], false⟩

/-- A byte that must occur once. -/
abbrev one (v : UInt8) : Container := .element 1 (some 1) (.value "byte" v)

/-- A reference that must occur once. -/
abbrev ref (name : String) : Container := .element 1 (some 1) (.recursive name)

variable {rec : Rec}

theorem lineLoop_cons (ctx : Ctx) (p0 : Bytes) (c : Container) (cs : List Container) (st : LnState) :
    lineLoop rec ctx p0 (c :: cs) st = tick >>= fun _ => lineStep rec ctx p0 c st >>= fun st' => lineLoop rec ctx p0 cs st' := rfl

/-- What a reference that occurs leaves. -/
abbrev got (name : String) (t : Tree) : TElement := .mk (some (ref name)) [.tree t]

/-- What a byte that occurs leaves. -/
abbrev hit (v : UInt8) : TElement := .mk (some (one v)) [.value [] v]

theorem lineLoop_one_hit (v : UInt8) (p0 : Bytes) (cs : List Container) (es : List TElement) (p d : Bytes) (s : Stk) :
    lineLoop rec c0 p0 (one v :: cs) ⟨es, p, v :: d⟩ s
      = ((lineLoop rec c0 p0 cs ⟨es ++ [hit v], v :: d, d⟩ s).1, (lineLoop rec c0 p0 cs ⟨es ++ [hit v], v :: d, d⟩ s).2.1,
          3 + (lineLoop rec c0 p0 cs ⟨es ++ [hit v], v :: d, d⟩ s).2.2) := by
  have hm : matchByte v [] (v :: d) s = (.ok (some (.value [] v, d)), s) := by simp [matchByte]
  have hv : elementContent rec (.value "byte" v) c0 p (v :: d) s = (.ok (some (.value [] v, d)), s, 0) := by
    show (elementValue rec v c0 p (v :: d)) s = _
    simp only [elementValue, skipChannels, List.isEmpty_nil, if_true, bind_run, pure_run, lift_run, hm, Nat.add_zero]
  have he : element rec (.value "byte" v) c0 p (v :: d) s = (.ok (.value [] v, d), s, 0) := by
    unfold element
    rw [if_neg (by simp), bind_run, hv]
    rfl
  have hl : elementLoop rec (.value "byte" v) (some 1) c0 (d.length + 1) ⟨[.value [] v], v :: d, d⟩ s
      = (.ok ⟨[.value [] v], v :: d, d⟩, s, 1) := by
    unfold elementLoop
    rw [bind_run, tick_run]
    cases d <;> rfl
  have hl' : elementLoop rec (.value "byte" v) (some 1) c0 ((v :: d).length + 1) ⟨[], p, v :: d⟩ s
      = (.ok ⟨[.value [] v], v :: d, d⟩, s, 2) := by
    rw [List.length_cons]
    unfold elementLoop
    rw [bind_run, tick_run]
    simp only [List.isEmpty_cons, Bool.false_eq_true, if_false, reachedMax, List.length_nil, Nat.reduceLeDiff, decide_false, bind_run,
      attempt, he, elementNext, List.nil_append, hl]
  have hs : lineStep rec c0 p0 (one v) ⟨es, p, v :: d⟩ s = (.ok ⟨es ++ [hit v], v :: d, d⟩, s, 2) := by
    unfold lineStep
    simp only [bind_run]
    rw [hl']
    rfl
  rw [lineLoop_cons, bind_run, tick_run]
  simp only [bind_run, hs]
  refine Prod.ext rfl (Prod.ext rfl ?_)
  simp only
  omega

theorem lineLoop_one_miss {v b : UInt8} (h : v ≠ b) (p0 : Bytes) (cs : List Container) (es : List TElement) (p d : Bytes) (s : Stk) :
    lineLoop rec c0 p0 (one v :: cs) ⟨es, p, b :: d⟩ s = (.err, s, 2) := by
  have hm : matchByte v [] (b :: d) s = (.ok none, s) := by simp [matchByte, h]
  have hv : elementContent rec (.value "byte" v) c0 p (b :: d) s = (.ok none, s, 0) := by
    show (elementValue rec v c0 p (b :: d)) s = _
    simp only [elementValue, skipChannels, List.isEmpty_nil, if_true, bind_run, pure_run, lift_run, hm, Nat.add_zero]
  have he : element rec (.value "byte" v) c0 p (b :: d) s = (.err, s, 0) := by
    unfold element
    rw [if_neg (by simp), bind_run, hv]
    rfl
  have hl : elementLoop rec (.value "byte" v) (some 1) c0 ((b :: d).length + 1) ⟨[], p, b :: d⟩ s
      = (.ok ⟨[], p, b :: d⟩, s, 1) := by
    rw [List.length_cons]
    unfold elementLoop
    rw [bind_run, tick_run]
    simp only [List.isEmpty_cons, Bool.false_eq_true, if_false, reachedMax, List.length_nil, Nat.reduceLeDiff, decide_false, bind_run,
      attempt, he, elementNext, pure_run]
  have hs : lineStep rec c0 p0 (one v) ⟨es, p, b :: d⟩ s = (.err, s, 1) := by
    unfold lineStep
    simp only [bind_run]
    rw [hl]
    rfl
  rw [lineLoop_cons, bind_run, tick_run]
  simp only [bind_run, hs]

theorem lineLoop_ref_ok {name : String} {tok : Token} {t : Tree} {s s' : Stk} {k : Nat} (p0 : Bytes) (cs : List Container)
    (es : List TElement) (p d : Bytes) (hd : d ≠ []) (hs : recursiveToken name s = (.ok tok, s))
    (hr : rec tok c0 p d s = (.ok t, s', k)) (ht : t.isSuccessful = true) :
    lineLoop rec c0 p0 (ref name :: cs) ⟨es, p, d⟩ s
      = ((lineLoop rec c0 p0 cs ⟨es ++ [got name t], d, t.remaining⟩ s').1, (lineLoop rec c0 p0 cs ⟨es ++ [got name t], d, t.remaining⟩ s').2.1,
          3 + k + (lineLoop rec c0 p0 cs ⟨es ++ [got name t], d, t.remaining⟩ s').2.2) := by
  obtain ⟨b, d', rfl⟩ := List.exists_cons_of_ne_nil hd
  have hv : elementContent rec (.recursive name) c0 p (b :: d') s = (.ok (some (.tree t, t.remaining)), s', k) := by
    unfold elementContent
    simp only [bind_run, lift_run, hs, hr, pure_run, treeContent, Nat.add_zero, Nat.zero_add]
  have he : element rec (.recursive name) c0 p (b :: d') s = (.ok (.tree t, t.remaining), s', k) := by
    unfold element
    rw [if_neg (by simp), bind_run, hv]
    simp [acceptContent, TContent.isSuccessful, ht, lift_run]
  have hl : elementLoop rec (.recursive name) (some 1) c0 (d'.length + 1) ⟨[.tree t], b :: d', t.remaining⟩ s'
      = (.ok ⟨[.tree t], b :: d', t.remaining⟩, s', 1) := by
    unfold elementLoop
    rw [bind_run, tick_run]
    cases t.remaining <;> rfl
  have hl' : elementLoop rec (.recursive name) (some 1) c0 ((b :: d').length + 1) ⟨[], p, b :: d'⟩ s
      = (.ok ⟨[.tree t], b :: d', t.remaining⟩, s', 1 + (k + 1)) := by
    rw [List.length_cons]
    unfold elementLoop
    rw [bind_run, tick_run]
    simp only [List.isEmpty_cons, Bool.false_eq_true, if_false, reachedMax, List.length_nil, Nat.reduceLeDiff, decide_false, bind_run,
      attempt, he, elementNext, List.nil_append, hl]
  have hst : lineStep rec c0 p0 (ref name) ⟨es, p, b :: d'⟩ s
      = (.ok ⟨es ++ [got name t], b :: d', t.remaining⟩, s', 1 + (k + 1)) := by
    unfold lineStep
    simp only [bind_run]
    rw [hl']
    rfl
  rw [lineLoop_cons, bind_run, tick_run]
  simp only [bind_run, hst]
  refine Prod.ext rfl (Prod.ext rfl ?_)
  simp only
  omega

theorem lineLoop_ref_oof {name : String} {tok : Token} {s : Stk} (p0 : Bytes) (cs : List Container)
    (es : List TElement) (p d : Bytes) (hd : d ≠ []) (hs : recursiveToken name s = (.ok tok, s))
    (hr : (rec tok c0 p d s).1 = .oof) : (lineLoop rec c0 p0 (ref name :: cs) ⟨es, p, d⟩ s).1 = .oof := by
  obtain ⟨b, d', rfl⟩ := List.exists_cons_of_ne_nil hd
  obtain ⟨s', k, hr⟩ : ∃ s' k, rec tok c0 p (b :: d') s = (.oof, s', k) := ⟨_, _, Prod.ext hr rfl⟩
  have hv : elementContent rec (.recursive name) c0 p (b :: d') s = (.oof, s', 0 + k) := by
    unfold elementContent
    simp only [bind_run, lift_run, hs, hr]
  have he : element rec (.recursive name) c0 p (b :: d') s = (.oof, s', 0 + k) := by
    unfold element
    rw [if_neg (by simp), bind_run, hv]
  have hl' : elementLoop rec (.recursive name) (some 1) c0 ((b :: d').length + 1) ⟨[], p, b :: d'⟩ s
      = (.oof, s', 1 + (0 + k)) := by
    rw [List.length_cons]
    unfold elementLoop
    rw [bind_run, tick_run]
    simp only [List.isEmpty_cons, Bool.false_eq_true, if_false, reachedMax, List.length_nil, Nat.reduceLeDiff, decide_false, bind_run,
      attempt, he]
  have hst : lineStep rec c0 p0 (ref name) ⟨es, p, b :: d'⟩ s = (.oof, s', 1 + (0 + k)) := by
    unfold lineStep
    simp only [bind_run]
    rw [hl']
  rw [lineLoop_cons, bind_run, tick_run]
  simp only [bind_run, hst]

/-! ## Lines of a block -/

theorem blockLoop_cons (tok : Token) (p d : Bytes) (idx : Nat) (g : GLine) (gs : List GLine) (acc : List TLine) :
    blockLoop rec tok c0 p d idx (g :: gs) acc = tick >>= fun _ => lift (alreadyTried tok idx d) >>= fun skip =>
      if skip then blockLoop rec tok c0 p d (idx + 1) gs acc
      else lift (recordLine tok idx d) >>= fun _ => attempt (line rec idx g c0 p d) >>= fun r =>
        lineNext acc (blockLoop rec tok c0 p d (idx + 1) gs) r := rfl

theorem line_run (idx : Nat) (g : GLine) (p d : Bytes) (s : Stk) :
    line rec idx g c0 p d s = match lineLoop rec c0 p g.containers ⟨[], p, d⟩ s with
      | (.ok st, s', k) => (.ok (.mk idx g false st.list, st.rem), s', k)
      | (.err, s', k) => (.err, s', k)
      | (.panic, s', k) => (.panic, s', k)
      | (.oof, s', k) => (.oof, s', k) := by
  unfold line
  rw [bind_run]
  generalize lineLoop rec c0 p g.containers ⟨[], p, d⟩ s = r
  obtain ⟨o, s', k⟩ := r
  cases o <;> rfl

section
variable {tok : Token} {p d : Bytes} {idx : Nat} {g : GLine} {s s' : Stk} {k : Nat}

theorem block_err (gs : List GLine) (acc : List TLine) (hn : (alreadyTried tok idx d s).1 = .ok false)
    (hl : lineLoop rec c0 p g.containers ⟨[], p, d⟩ (recordLine tok idx d s).2 = (.err, s', k)) :
    blockLoop rec tok c0 p d idx (g :: gs) acc s
      = ((blockLoop rec tok c0 p d (idx + 1) gs acc s').1, (blockLoop rec tok c0 p d (idx + 1) gs acc s').2.1,
          1 + k + (blockLoop rec tok c0 p d (idx + 1) gs acc s').2.2) := by
  have hr : (recordLine tok idx d s).1 = .ok () := rfl
  have ha : (alreadyTried tok idx d s).2 = s := rfl
  rw [blockLoop_cons]
  simp only [bind_run, tick_run, lift_run, hn, ha, Bool.false_eq_true, if_false, hr, attempt, line_run, hl, lineNext]
  refine Prod.ext rfl (Prod.ext rfl ?_)
  simp only
  omega

theorem block_ok (gs : List GLine) (acc : List TLine) {es : List TElement} {p' d' : Bytes} (hn : (alreadyTried tok idx d s).1 = .ok false)
    (hl : lineLoop rec c0 p g.containers ⟨[], p, d⟩ (recordLine tok idx d s).2 = (.ok ⟨es, p', d'⟩, s', k))
    (hs : (TLine.mk idx g false es).isSuccessful = true) :
    blockLoop rec tok c0 p d idx (g :: gs) acc s = (.ok (acc ++ [.mk idx g false es], d'), s', 1 + k) := by
  have hr : (recordLine tok idx d s).1 = .ok () := rfl
  have ha : (alreadyTried tok idx d s).2 = s := rfl
  rw [blockLoop_cons]
  simp only [bind_run, tick_run, lift_run, hn, ha, Bool.false_eq_true, if_false, hr, attempt, line_run, hl, lineNext, hs, if_true, pure_run]
  refine Prod.ext rfl (Prod.ext rfl ?_)
  simp only
  omega

theorem block_oof (gs : List GLine) (acc : List TLine) (hn : (alreadyTried tok idx d s).1 = .ok false)
    (hl : (lineLoop rec c0 p g.containers ⟨[], p, d⟩ (recordLine tok idx d s).2).1 = .oof) :
    (blockLoop rec tok c0 p d idx (g :: gs) acc s).1 = .oof := by
  obtain ⟨s', k, hl⟩ : ∃ s' k, lineLoop rec c0 p g.containers ⟨[], p, d⟩ (recordLine tok idx d s).2 = (.oof, s', k) :=
    ⟨_, _, Prod.ext hl rfl⟩
  have hr : (recordLine tok idx d s).1 = .ok () := rfl
  have ha : (alreadyTried tok idx d s).2 = s := rfl
  rw [blockLoop_cons]
  simp only [bind_run, tick_run, lift_run, hn, ha, Bool.false_eq_true, if_false, hr, attempt, line_run, hl]

end

theorem tokenBody_run (tok : Token) (p d : Bytes) (s : Stk) {ls : List TLine} {d' : Bytes} {s' : Stk} {k : Nat}
    (h : blockLoop rec tok c0 p d 0 tok.lines [] (enter tok s).2 = (.ok (ls, d'), s', k)) (hls : ls ≠ []) :
    tokenBody rec tok c0 p d s = (.ok (.mk tok (mkBlock ls) [] d'), s'.del tok.name, 1 + k) := by
  have he : (enter tok s).1 = .ok () := by
    unfold enter
    split <;> rfl
  obtain ⟨l, ls', rfl⟩ := List.exists_cons_of_ne_nil hls
  unfold tokenBody
  simp only [bind_run, tick_run, lift_run, he, thenDelete, h, List.isEmpty_cons, Bool.false_eq_true, if_false, skipChannels,
    List.isEmpty_nil, if_true, pure_run]
  refine Prod.ext rfl (Prod.ext rfl ?_)
  simp only
  omega

theorem tokenBody_oof (tok : Token) (p d : Bytes) (s : Stk)
    (h : (blockLoop rec tok c0 p d 0 tok.lines [] (enter tok s).2).1 = .oof) : (tokenBody rec tok c0 p d s).1 = .oof := by
  obtain ⟨s', k, h⟩ : ∃ s' k, blockLoop rec tok c0 p d 0 tok.lines [] (enter tok s).2 = (.oof, s', k) := ⟨_, _, Prod.ext h rfl⟩
  have he : (enter tok s).1 = .ok () := by
    unfold enter
    split <;> rfl
  unfold tokenBody
  simp only [bind_run, tick_run, lift_run, he, thenDelete, h]

/-! ## The map while only one token is in it -/

/-- The map holds nothing, or the token with lines started on longer data. -/
def Clear (tok : Token) (d : Bytes) (s : Stk) : Prop :=
  s = [] ∨ ∃ ls, s = [(tok.name, ⟨tok, ls⟩)] ∧ ∀ q ∈ ls, d.length < q.2.length

theorem enter_clear {tok : Token} {d : Bytes} {s : Stk} (h : Clear tok d s) :
    ∃ ls, (enter tok s).2 = [(tok.name, ⟨tok, ls⟩)] ∧ ∀ q ∈ ls, d.length < q.2.length := by
  rcases h with rfl | ⟨ls, rfl, h⟩
  · exact ⟨[], rfl, fun i => by simp⟩
  · exact ⟨ls, by simp [enter, Stk.get], h⟩

theorem lookup_longer {ls : List (Nat × Bytes)} {d : Bytes} (h : ∀ q ∈ ls, d.length < q.2.length) (i : Nat) :
    ls.lookup i ≠ some d := by
  intro hi
  have : (i, d) ∈ ls := by
    clear h
    induction ls with
    | nil => simp at hi
    | cons x xs ih =>
      obtain ⟨j, e⟩ := x
      rw [List.lookup_cons] at hi
      cases hij : i == j with
      | true =>
        rw [hij] at hi
        simp only [Option.some.injEq] at hi
        rw [beq_iff_eq] at hij
        simp [hi, hij]
      | false =>
        rw [hij] at hi
        exact List.mem_cons_of_mem _ (ih hi)
  exact absurd (h _ this) (by simp)

theorem record_one (tok : Token) (ls : List (Nat × Bytes)) (idx : Nat) (d : Bytes) :
    (recordLine tok idx d [(tok.name, ⟨tok, ls⟩)]).2 = [(tok.name, ⟨tok, (idx, d) :: ls⟩)] := by
  simp [recordLine, Stk.get, Stk.put, Stk.del]

theorem record_nil (tok : Token) (idx : Nat) (d : Bytes) : (recordLine tok idx d []).2 = [(tok.name, ⟨tok, [(idx, d)]⟩)] := by
  simp [recordLine, Stk.get, Stk.put, Stk.del]

theorem tried_one (tok : Token) {ls : List (Nat × Bytes)} {idx : Nat} {d : Bytes} (h : ls.lookup idx ≠ some d) :
    (alreadyTried tok idx d [(tok.name, ⟨tok, ls⟩)]).1 = .ok false := by
  simp [alreadyTried, Stk.get, h]

theorem tried_nil (tok : Token) (idx : Nat) (d : Bytes) : (alreadyTried tok idx d []).1 = .ok false := rfl

theorem recursive_one (tok : Token) (ls : List (Nat × Bytes)) :
    recursiveToken tok.name [(tok.name, ⟨tok, ls⟩)] = (.ok tok, [(tok.name, ⟨tok, ls⟩)]) := by
  simp [recursiveToken, Stk.get]

theorem del_one (tok : Token) (e : Entry) : Stk.del [(tok.name, e)] tok.name = [] := by simp [Stk.del]

end Rodkina.Ast.Cost
