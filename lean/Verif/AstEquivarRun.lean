import Verif.AstEquivar

/-!
# Renaming without making names equal: the parser
-/

namespace Rodkina.Ast

open M

/-- The recursive call mirrors every injective renaming, of the tokens with `f`, of the channels with `k`. -/
def RecEqv (rec : Rec) : Prop :=
  ∀ f k : String → String, Function.Injective f → Function.Injective k → ∀ t ctx prev cur,
    MSim f TreeSim (rec t ctx prev cur) (rec (t.rename f) (ctx.ren f k) prev cur)

theorem MSim.self {f : String → String} {α : Type} {R : α → α → Prop} (hR : ∀ a, R a a) (m : M α) :
    MSim f R (M.fresh m) (M.fresh m) := by
  intro s
  refine ⟨?_, rfl⟩
  simp only [M.fresh]
  cases (m []).1 <;> simp only [OutSim]
  exact hR _

theorem TreeSim.refl (t : Tree) : TreeSim t t := ⟨fun _ => rfl, rfl, rfl, rfl⟩

section
variable {rec : Rec} {f k : String → String} (hrec : RecEqv rec) (hf : Function.Injective f) (hk : Function.Injective k)
include hrec hf hk

omit hf in
theorem eqv_condMatch (t : Option Token) (data : Bytes) :
    MSim f Eq (condMatch rec t data) (condMatch rec (t.map (Token.rename k)) data) := by
  cases t with
  | none => exact MSim.pure rfl
  | some t => exact MSim.bind (MSim.fresh (hrec k k hk hk t Ctx.plain [] data)) (fun _ _ _ => MSim.pure rfl)

omit hf in
theorem eqv_channel (c : Channel) (prev cur : Bytes) :
    MSim f (Option.Rel TreeSim) (channel rec c prev cur) (channel rec (c.rename k) prev cur) := by
  rcases c with ⟨t, a, b⟩
  refine MSim.bind (MSim.fresh (hrec k k hk hk t Ctx.plain prev cur)) (fun x y hxy => ?_)
  refine MSim.bind (R := Eq) ?_ (fun p q hpq => ?_)
  · refine MSim.bind (eqv_condMatch hrec hk a prev) (fun p q hpq => ?_)
    rw [hxy.2.1]
    refine MSim.bind (eqv_condMatch hrec hk b _) (fun p' q' hpq' => ?_)
    subst hpq hpq'
    exact MSim.pure rfl
  · subst hpq
    refine MSim.pure ?_
    cases p
    · exact .none
    · exact .some hxy

/-- States of the channel loop that look alike. -/
def ChSim (a b : ChState) : Prop := TreesSim a.list b.list ∧ a.prev = b.prev ∧ a.rem = b.rem

omit hrec hf hk in
theorem eqv_channelApply {a b : ChState} (h : ChSim a b) {x y : Option (Option Tree)} (hxy : Option.Rel (Option.Rel TreeSim) x y) :
    MSim f ChSim (channelApply a x) (channelApply b y) := by
  obtain ⟨la, pa, ra⟩ := a
  obtain ⟨lb, pb, rb⟩ := b
  obtain ⟨h1, h2, h3⟩ := h
  simp only at h1 h2 h3
  subst h2 h3
  cases hxy with
  | none => exact MSim.pure ⟨h1, rfl, rfl⟩
  | some hxy =>
    cases hxy with
    | none => exact MSim.pure ⟨h1, rfl, rfl⟩
    | some ht =>
      rename_i t t'
      unfold channelApply
      refine MSim.bind (R := Eq) ?_ (fun p q hpq => ?_)
      · simp only
        rw [ht.1]
        unfold sliceFrom
        split
        · exact MSim.pure rfl
        · exact MSim.crash
      · subst hpq
        refine MSim.ite Iff.rfl (MSim.pure ⟨h1, rfl, rfl⟩) (MSim.pure ⟨⟨fun ch => ?_, ?_⟩, rfl, rfl⟩)
        · simp only [treesBytes_append, h1.1, treesBytes, ht.1]
        · simp [h1.2]

omit hf in
theorem eqv_channelRound (chs : List Channel) {a b : ChState} (h : ChSim a b) :
    MSim f ChSim (channelRound rec chs a) (channelRound rec (chs.map (Channel.rename k)) b) := by
  induction chs generalizing a b with
  | nil => exact MSim.pure h
  | cons c chs ih =>
    rw [List.map_cons, channelRound, channelRound]
    rw [h.2.1, h.2.2]
    exact MSim.bind (MSim.attempt (eqv_channel hrec hk c _ _)) (fun x y hxy =>
      MSim.bind (eqv_channelApply h hxy) (fun p q hpq => ih hpq))

omit hf in
theorem eqv_channelLoop (chs : List Channel) (n : Nat) {a b : ChState} (h : ChSim a b) :
    MSim f ChSim (channelLoop rec chs n a) (channelLoop rec (chs.map (Channel.rename k)) n b) := by
  induction n generalizing a b with
  | zero => exact MSim.oof
  | succ n ih =>
    rw [channelLoop, channelLoop]
    refine MSim.bind (eqv_channelRound hrec hk chs h) (fun p q hpq => ?_)
    refine MSim.ite (by rw [hpq.1.2, h.1.2]) (MSim.pure hpq) (ih hpq)

/-- A list of trees and the rest. -/
def SkSim (a b : List Tree × Bytes) : Prop := TreesSim a.1 b.1 ∧ a.2 = b.2

omit hf in
theorem eqv_skip (chs : List Channel) (prev cur : Bytes) :
    MSim f SkSim (skipChannels rec chs prev cur) (skipChannels rec (chs.map (Channel.rename k)) prev cur) := by
  unfold skipChannels
  refine MSim.ite (by simp) (MSim.pure ⟨⟨fun _ => rfl, rfl⟩, rfl⟩) ?_
  refine MSim.bind (R := Option.Rel SkSim) (MSim.attempt ?_) (fun x y hxy => ?_)
  · unfold channels
    refine MSim.bind (eqv_channelLoop hrec hk chs _ ⟨⟨fun _ => rfl, rfl⟩, rfl, rfl⟩) (fun p q hpq => ?_)
    refine MSim.ite ?_ MSim.fail (MSim.pure ⟨hpq.1, hpq.2.2⟩)
    have := hpq.1.2
    rw [List.isEmpty_iff_length_eq_zero, List.isEmpty_iff_length_eq_zero, this]
  · cases hxy with
    | none => exact MSim.pure ⟨⟨fun _ => rfl, rfl⟩, rfl⟩
    | some h => exact MSim.pure h

/-- A content and the rest. -/
def PairSim (a b : TContent × Bytes) : Prop := ContSim a.1 b.1 ∧ a.2 = b.2

omit hf in
theorem eqv_value (b : UInt8) (ctx : Ctx) (prev cur : Bytes) :
    MSim f (Option.Rel PairSim) (elementValue rec b ctx prev cur) (elementValue rec b (ctx.ren f k) prev cur) := by
  refine MSim.bind (eqv_skip hrec hk ctx.channels prev cur) (fun x y hxy => ?_)
  unfold matchByte
  rw [hxy.2]
  cases y.2 with
  | nil => exact MSim.fail
  | cons c r =>
    refine MSim.ite Iff.rfl (MSim.pure (.some ⟨⟨fun ch => ?_, rfl⟩, rfl⟩)) (MSim.pure .none)
    simp only [TContent.bytes, hxy.1.1]

omit hrec hf hk in
theorem eqv_treeContent {t t' : Tree} (h : TreeSim t t') : Option.Rel PairSim (treeContent t) (treeContent t') := by
  refine .some ⟨⟨fun ch => ?_, h.2.2.1⟩, h.2.1⟩
  simp only [TContent.bytes, h.1]

theorem eqv_content (c : Content) (ctx : Ctx) (prev cur : Bytes) :
    MSim f (Option.Rel PairSim) (elementContent rec c ctx prev cur) (elementContent rec (c.rename f) (ctx.ren f k) prev cur) := by
  cases c with
  | value n b =>
    simp only [Content.rename, elementContent]
    exact MSim.ite Iff.rfl MSim.fail (eqv_value hrec hk b ctx prev cur)
  | token t =>
    simp only [Content.rename, elementContent]
    exact MSim.bind (hrec f k hf hk t ctx prev cur) (fun x y h => MSim.pure (eqv_treeContent h))
  | recursive n =>
    simp only [Content.rename, elementContent]
    refine MSim.bind (eqv_recursive hf n) (fun x y h => ?_)
    subst h
    exact MSim.bind (hrec f k hf hk x ctx prev cur) (fun x y h => MSim.pure (eqv_treeContent h))
  | everything n ex esc =>
    have h := hrec f k hf hk ex ⟨esc, [], !ctx.reverse⟩ prev cur
    cases esc with
    | none =>
      simp only [Content.rename, elementContent]
      exact MSim.bind h (fun x y h => MSim.pure (eqv_treeContent h))
    | some e =>
      simp only [Content.rename, elementContent]
      exact MSim.bind h (fun x y h => MSim.pure (eqv_treeContent h))
  | external n g =>
    simp only [Content.rename, elementContent]
    refine MSim.bind (R := TreeSim) ?_ (fun x y h => MSim.pure (eqv_treeContent h))
    unfold external
    refine MSim.bind (R := Eq) (MSim.self (fun _ => rfl) _) (fun x y h => ?_)
    subst h
    exact MSim.pure ⟨fun _ => rfl, rfl, rfl, rfl⟩

theorem eqv_element (c : Content) (ctx : Ctx) (prev cur : Bytes) :
    MSim f PairSim (element rec c ctx prev cur) (element rec (c.rename f) (ctx.ren f k) prev cur) := by
  unfold element
  refine MSim.ite Iff.rfl MSim.fail (MSim.bind (eqv_content hrec hf hk c ctx prev cur) (fun x y h => ?_))
  cases h with
  | none => exact MSim.fail
  | some h =>
    simp only [acceptContent]
    exact MSim.ite (by rw [h.1.2]) (MSim.pure h) MSim.fail

/-- States of the element loops that look alike. -/
def ElSim (a b : ElState) : Prop := ContsSim a.list b.list ∧ a.prev = b.prev ∧ a.rem = b.rem

omit hrec hf hk in
theorem contsSim_append {a b c d : List TContent} (h1 : ContsSim a b) (h2 : ContsSim c d) : ContsSim (a ++ c) (b ++ d) := by
  refine ⟨fun ch => ?_, ?_⟩
  · rw [contentsBytes_append, contentsBytes_append, h1.1, h2.1]
  · simp [h1.2, h2.2]

theorem eqv_elementLoop (c : Content) (max : Option Nat) (ctx : Ctx) (n : Nat) {a b : ElState} (h : ElSim a b) :
    MSim f ElSim (elementLoop rec c max ctx n a) (elementLoop rec (c.rename f) max (ctx.ren f k) n b) := by
  induction n generalizing a b with
  | zero => exact MSim.oof
  | succ n ih =>
    rw [elementLoop, elementLoop]
    rw [h.2.2, h.2.1, h.1.2]
    refine MSim.ite Iff.rfl (MSim.pure h) (MSim.ite Iff.rfl (MSim.pure h) ?_)
    refine MSim.bind (MSim.attempt (eqv_element hrec hf hk c ctx _ _)) (fun x y hxy => ?_)
    cases hxy with
    | none => exact MSim.pure h
    | some hp =>
      refine ih ⟨contsSim_append h.1 ⟨fun ch => ?_, rfl⟩, h.2.2, hp.2⟩
      simp only [contentsBytes, hp.1.1]

/-- States of a line that differ by the renaming. -/
def LnSim (f : String → String) (a b : LnState) : Prop := ElemsSim f a.list b.list ∧ a.prev = b.prev ∧ a.rem = b.rem

omit hf in
theorem eqv_composeLoop (ctx : Ctx) (prev : Bytes) (l : List (UInt8 × Nat)) (rem : Bytes) :
    MSim f Eq (composeLoop rec ctx prev l rem) (composeLoop rec (ctx.ren f k) prev l rem) := by
  induction l generalizing rem with
  | nil => exact MSim.pure rfl
  | cons e l ih =>
    rw [composeLoop, composeLoop]
    refine MSim.bind (eqv_value hrec hk e.1 ctx prev rem) (fun x y hxy => ?_)
    cases hxy with
    | none => exact MSim.fail
    | some hp =>
      simp only [composeNext]
      rw [hp.2]
      exact ih _

theorem eqv_lineStep (ctx : Ctx) (prev : Bytes) (c : Container) {a b : LnState} (h : LnSim f a b) :
    MSim f (LnSim f) (lineStep rec ctx prev c a) (lineStep rec (ctx.ren f k) prev (c.rename f) b) := by
  cases c with
  | compose c =>
    simp only [Container.rename, lineStep]
    rw [h.2.2]
    exact MSim.bind (eqv_composeLoop hrec hk ctx prev c.list _) (fun _ _ _ => MSim.fail)
  | element min max ct =>
    simp only [Container.rename, lineStep]
    rw [h.2.2, h.2.1]
    refine MSim.bind (eqv_elementLoop hrec hf hk ct max ctx _ ⟨⟨fun _ => rfl, rfl⟩, rfl, rfl⟩) (fun x y hxy => ?_)
    rw [hxy.1.2]
    refine MSim.ite Iff.rfl MSim.fail (MSim.pure ⟨?_, hxy.2.1, hxy.2.2⟩)
    have he : x.list.isEmpty = y.list.isEmpty := by
      rw [Bool.eq_iff_iff, List.isEmpty_iff_length_eq_zero, List.isEmpty_iff_length_eq_zero, hxy.1.2]
    simp only [he]
    cases y.list.isEmpty with
    | true => exact h.1
    | false =>
      refine ⟨fun ch => ?_, ?_⟩
      · simp only [Bool.false_eq_true, if_false, elementsBytes_append, h.1.1, elementsBytes, TElement.bytes, hxy.1.1]
      · simp only [Bool.false_eq_true, if_false, List.map_append]
        rw [h.1.2]
        simp only [List.map_cons, List.map_nil, TElement.grammar, TElement.amount, TElement.contents, hxy.1.2, Option.map_some, Container.rename]

theorem eqv_lineLoop (ctx : Ctx) (prev : Bytes) (cs : List Container) {a b : LnState} (h : LnSim f a b) :
    MSim f (LnSim f) (lineLoop rec ctx prev cs a) (lineLoop rec (ctx.ren f k) prev (cs.map (Container.rename f)) b) := by
  induction cs generalizing a b with
  | nil => exact MSim.pure h
  | cons c cs ih =>
    rw [List.map_cons, lineLoop, lineLoop]
    exact MSim.bind (eqv_lineStep hrec hf hk ctx prev c h) (fun x y hxy => ih hxy)

/-- A line and the rest. -/
def LineSim (a b : TLine × Bytes) : Prop := lineSeen a.1 = lineSeen b.1 ∧ a.2 = b.2

theorem eqv_lineRun (idx : Nat) (g : GLine) (ctx : Ctx) (prev cur : Bytes) :
    MSim f LineSim (line rec idx g ctx prev cur) (line rec idx (g.rename f) (ctx.ren f k) prev cur) := by
  unfold line
  rw [rename_containers]
  refine MSim.bind (eqv_lineLoop hrec hf hk ctx prev g.containers ⟨⟨fun _ => rfl, rfl⟩, rfl, rfl⟩) (fun x y hxy => ?_)
  exact MSim.pure ⟨eqv_line hf hxy.1 idx g false, hxy.2.2⟩

theorem eqv_escape (idx : Nat) (g : GLine) (ctx : Ctx) {a b : RvState} (h : ElSim a b) :
    MSim f ElSim (escapeStep rec idx g ctx a) (escapeStep rec idx (g.rename f) (ctx.ren f k) b) := by
  unfold escapeStep
  cases he : ctx.escape with
  | none =>
    have : (ctx.ren f k).escape = none := by simp [Ctx.ren, he]
    rw [this]
    exact MSim.pure h
  | some esc =>
    have : (ctx.ren f k).escape = some (esc.rename f) := by simp [Ctx.ren, he]
    rw [this]
    simp only
    rw [h.2.1, h.2.2]
    refine MSim.bind (MSim.attempt (hrec f k hf hk esc ⟨none, ctx.channels, false⟩ _ _)) (fun x y hxy => ?_)
    cases hxy with
    | none => exact MSim.pure h
    | some ht =>
      rename_i t t'
      simp only [escapeLine]
      rw [ht.2.2.1, ht.2.1, h.2.2]
      refine MSim.ite Iff.rfl ?_ (MSim.pure h)
      refine MSim.bind (MSim.attempt (eqv_lineRun hrec hf hk idx g ctx _ _)) (fun x y hxy => ?_)
      cases hxy with
      | none => exact MSim.pure h
      | some hl =>
        simp only [escapeApply]
        rw [seen_success hl.1, hl.2]
        refine MSim.ite Iff.rfl (MSim.ite Iff.rfl (MSim.pure ⟨contsSim_append h.1 ⟨fun _ => rfl, rfl⟩, rfl, rfl⟩) MSim.crash) (MSim.pure h)

theorem eqv_reverseLoop (idx : Nat) (g : GLine) (ctx : Ctx) (n : Nat) {a b : RvState} (h : ElSim a b) :
    MSim f ElSim (reverseLoop rec idx g ctx n a) (reverseLoop rec idx (g.rename f) (ctx.ren f k) n b) := by
  induction n generalizing a b with
  | zero => exact MSim.oof
  | succ n ih =>
    rw [reverseLoop, reverseLoop, h.2.2]
    refine MSim.ite Iff.rfl (MSim.pure h) (MSim.bind (eqv_escape hrec hf hk idx g ctx h) (fun x y hxy => ?_))
    rw [hxy.2.1, hxy.2.2]
    refine MSim.bind (MSim.attempt (eqv_lineRun hrec hf hk idx g ctx _ _)) (fun p q hpq => ?_)
    cases hpq with
    | some _ => exact MSim.pure hxy
    | none =>
      simp only [reverseNext]
      rw [hxy.2.2]
      cases y.rem with
      | nil => exact MSim.crash
      | cons c r => exact ih ⟨contsSim_append hxy.1 ⟨fun _ => rfl, rfl⟩, rfl, rfl⟩

/-- Recorded lines and the rest. -/
def BlkSim (a b : List TLine × Bytes) : Prop := a.1.map lineSeen = b.1.map lineSeen ∧ a.2 = b.2

theorem eqv_reverseLine (idx : Nat) (g : GLine) (ctx : Ctx) (prev cur : Bytes) {acc acc' : List TLine} (h : acc.map lineSeen = acc'.map lineSeen) :
    MSim f BlkSim (reverseLine rec idx g ctx prev cur acc) (reverseLine rec idx (g.rename f) (ctx.ren f k) prev cur acc') := by
  unfold reverseLine
  refine MSim.bind (eqv_reverseLoop hrec hf hk idx g ctx _ ⟨⟨fun _ => rfl, rfl⟩, rfl, rfl⟩) (fun x y hxy => ?_)
  refine MSim.ite ?_ MSim.fail (MSim.pure ⟨?_, hxy.2.2⟩)
  · rw [List.isEmpty_iff_length_eq_zero, List.isEmpty_iff_length_eq_zero, hxy.1.2]
  · rw [List.map_append, List.map_append, h]
    congr 1
    simp only [List.map_cons, List.map_nil, List.cons.injEq, and_true]
    refine eqv_line hf ⟨fun ch => ?_, ?_⟩ idx g true
    · simp only [elementsBytes, TElement.bytes, hxy.1.1]
    · simp only [List.map_cons, List.map_nil, TElement.grammar, TElement.amount, TElement.contents, hxy.1.2, Option.map_none]

theorem eqv_blockLoop (tok : Token) (ctx : Ctx) (prev cur : Bytes) (gs : List GLine) (idx : Nat) {acc acc' : List TLine}
    (h : acc.map lineSeen = acc'.map lineSeen) :
    MSim f BlkSim (blockLoop rec tok ctx prev cur idx gs acc)
      (blockLoop rec (tok.rename f) (ctx.ren f k) prev cur idx (gs.map (GLine.rename f)) acc') := by
  induction gs generalizing idx acc acc' with
  | nil => exact MSim.pure ⟨h, rfl⟩
  | cons g gs ih =>
    rw [List.map_cons, blockLoop, blockLoop]
    refine MSim.bind (eqv_tried hf tok idx cur) (fun x y hxy => ?_)
    subst hxy
    refine MSim.ite Iff.rfl (ih (idx + 1) h) ?_
    refine MSim.bind (eqv_record hf tok idx cur) (fun _ _ _ => ?_)
    refine MSim.ite Iff.rfl (eqv_reverseLine hrec hf hk idx g ctx prev cur h) ?_
    refine MSim.bind (MSim.attempt (eqv_lineRun hrec hf hk idx g ctx prev cur)) (fun p q hpq => ?_)
    cases hpq with
    | none => exact ih (idx + 1) h
    | some hl =>
      simp only [lineNext]
      rw [seen_success hl.1]
      refine MSim.ite Iff.rfl (MSim.pure ⟨?_, hl.2⟩) (ih (idx + 1) ?_)
      · simp [h, hl.1]
      · simp [h, hl.1]

theorem eqv_tokenBody (t : Token) (ctx : Ctx) (prev cur : Bytes) :
    MSim f TreeSim (tokenBody rec t ctx prev cur) (tokenBody rec (t.rename f) (ctx.ren f k) prev cur) := by
  unfold tokenBody
  refine MSim.bind (eqv_enter hf t) (fun _ _ _ => ?_)
  rw [rename_name, rename_lines]
  refine MSim.bind (MSim.thenDelete hf t.name (eqv_blockLoop hrec hf hk t ctx prev cur t.lines 0 rfl)) (fun x y hxy => ?_)
  refine MSim.ite ?_ MSim.fail ?_
  · have := congrArg List.length hxy.1
    simp only [List.length_map] at this
    rw [List.isEmpty_iff_length_eq_zero, List.isEmpty_iff_length_eq_zero, this]
  · rw [hxy.2]
    refine MSim.bind (eqv_skip hrec hk ctx.channels prev y.2) (fun p q hpq => ?_)
    rw [hpq.2]
    exact MSim.pure (eqv_block hxy.1 hpq.1 _)

end

theorem eqv_token (n : Nat) : RecEqv (token n) := by
  induction n with
  | zero => intro f k _ _ t ctx prev cur; exact MSim.oof
  | succ n ih => intro f k hf hk t ctx prev cur; exact eqv_tokenBody ih hf hk t ctx prev cur

end Rodkina.Ast
