import Verif.AstCostLemmas

/-!
# The count of steps does not depend on the nesting bound

As AstMono.lean, for the parser with a count of steps: a run that does not exceed the nesting bound takes the same number of steps with any
larger bound.
-/

namespace Rodkina.Ast.Cost

open CM

/-- `m` runs out of fuel or agrees with `m'`. -/
def Le {α : Type} (m m' : CM α) : Prop := ∀ s, (m s).1 = .oof ∨ m s = m' s

namespace Le

variable {α β : Type}

theorem refl (m : CM α) : Le m m := fun _ => .inr rfl

theorem bind {m m' : CM α} {f f' : α → CM β} (hm : Le m m') (hf : ∀ a, Le (f a) (f' a)) :
    Le (m >>= f) (m' >>= f') := by
  intro s
  show (andThen m f s).1 = _ ∨ andThen m f s = andThen m' f' s
  unfold andThen
  rcases hm s with h | h
  · left
    generalize m s = r at *
    obtain ⟨o, s', k⟩ := r
    simp only at h
    subst h
    rfl
  · rw [← h]
    generalize m s = r at *
    obtain ⟨o, s', k⟩ := r
    cases o with
    | ok a =>
      rcases hf a s' with h | h
      · exact .inl h
      · right
        simp only [h]
    | err => exact .inr rfl
    | panic => exact .inr rfl
    | oof => exact .inr rfl

theorem attempt {m m' : CM α} (hm : Le m m') : Le (attempt m) (attempt m') := by
  intro s
  unfold CM.attempt
  rcases hm s with h | h
  · left
    generalize m s = r at *
    obtain ⟨o, s', k⟩ := r
    simp only at h
    subst h
    rfl
  · rw [← h]; exact .inr rfl

theorem fresh {m m' : CM α} (hm : Le m m') : Le (fresh m) (fresh m') := by
  intro s
  unfold CM.fresh
  rcases hm [] with h | h
  · exact .inl h
  · rw [h]; exact .inr rfl

theorem thenDelete {m m' : CM α} (name : String) (hm : Le m m') :
    Le (thenDelete name m) (thenDelete name m') := by
  intro s
  unfold CM.thenDelete
  rcases hm s with h | h
  · exact .inl h
  · rw [h]; exact .inr rfl

theorem ite {c : Prop} [Decidable c] {a a' b b' : CM α} (h1 : Le a a') (h2 : Le b b') :
    Le (if c then a else b) (if c then a' else b') := by
  split
  · exact h1
  · exact h2

theorem oof (m : CM α) : Le (CM.lift M.oof : CM α) m := fun _ => .inl rfl

end Le

/-- Pointwise order on recursive calls. -/
def RecLe (r r' : Rec) : Prop := ∀ t ctx prev cur, Le (r t ctx prev cur) (r' t ctx prev cur)

variable {r r' : Rec}

theorem le_condMatch (h : RecLe r r') (o : Option Token) (d : Bytes) :
    Le (condMatch r o d) (condMatch r' o d) := by
  unfold condMatch
  cases o with
  | none => exact Le.refl _
  | some t => exact Le.bind (Le.fresh (h _ _ _ _)) (fun _ => Le.refl _)

theorem le_channel (h : RecLe r r') (c : Channel) (prev cur : Bytes) :
    Le (channel r c prev cur) (channel r' c prev cur) := by
  unfold channel
  refine Le.bind (Le.fresh (h _ _ _ _)) (fun t => ?_)
  refine Le.bind ?_ (fun _ => Le.refl _)
  unfold channelCondition
  exact Le.bind (le_condMatch h _ _) (fun _ => Le.bind (le_condMatch h _ _) (fun _ => Le.refl _))

theorem le_channelRound (h : RecLe r r') (chs : List Channel) (st : ChState) :
    Le (channelRound r chs st) (channelRound r' chs st) := by
  induction chs generalizing st with
  | nil => exact Le.refl _
  | cons c cs ih =>
    unfold channelRound
    refine Le.bind (Le.refl _) (fun _ => ?_)
    exact Le.bind (Le.attempt (le_channel h _ _ _)) (fun _ => Le.bind (Le.refl _) (fun _ => ih _))

theorem le_channelLoop (h : RecLe r r') (chs : List Channel) (k : Nat) (st : ChState) :
    Le (channelLoop r chs k st) (channelLoop r' chs k st) := by
  induction k generalizing st with
  | zero => exact Le.refl _
  | succ k ih =>
    unfold channelLoop
    refine Le.bind (Le.refl _) (fun _ => ?_)
    exact Le.bind (le_channelRound h _ _) (fun _ => Le.ite (Le.refl _) (ih _))

theorem le_skipChannels (h : RecLe r r') (chs : List Channel) (prev cur : Bytes) :
    Le (skipChannels r chs prev cur) (skipChannels r' chs prev cur) := by
  unfold skipChannels
  refine Le.ite (Le.refl _) (Le.bind (Le.attempt ?_) (fun _ => Le.refl _))
  unfold channels
  exact Le.bind (le_channelLoop h _ _ _) (fun _ => Le.refl _)

theorem le_elementValue (h : RecLe r r') (n : UInt8) (ctx : Ctx) (prev cur : Bytes) :
    Le (elementValue r n ctx prev cur) (elementValue r' n ctx prev cur) := by
  unfold elementValue
  exact Le.bind (le_skipChannels h _ _ _) (fun _ => Le.refl _)

theorem le_elementContent (h : RecLe r r') (c : Content) (ctx : Ctx) (prev cur : Bytes) :
    Le (elementContent r c ctx prev cur) (elementContent r' c ctx prev cur) := by
  unfold elementContent
  cases c with
  | value n number => exact Le.ite (Le.refl _) (le_elementValue h _ _ _ _)
  | external name g =>
    refine Le.bind ?_ (fun _ => Le.refl _)
    unfold external
    exact Le.bind (Le.fresh (h _ _ _ _)) (fun _ => Le.refl _)
  | token t => exact Le.bind (h _ _ _ _) (fun _ => Le.refl _)
  | everything n ex esc => exact Le.bind (h _ _ _ _) (fun _ => Le.refl _)
  | recursive n =>
    exact Le.bind (Le.refl _) (fun _ => Le.bind (h _ _ _ _) (fun _ => Le.refl _))

theorem le_element (h : RecLe r r') (c : Content) (ctx : Ctx) (prev cur : Bytes) :
    Le (element r c ctx prev cur) (element r' c ctx prev cur) := by
  unfold element
  exact Le.ite (Le.refl _) (Le.bind (le_elementContent h _ _ _ _) (fun _ => Le.refl _))

theorem le_elementLoop (h : RecLe r r') (c : Content) (max : Option Nat) (ctx : Ctx) (k : Nat)
    (st : ElState) : Le (elementLoop r c max ctx k st) (elementLoop r' c max ctx k st) := by
  induction k generalizing st with
  | zero => exact Le.refl _
  | succ k ih =>
    unfold elementLoop
    refine Le.bind (Le.refl _) (fun _ => ?_)
    refine Le.ite (Le.refl _) (Le.ite (Le.refl _) (Le.bind (Le.attempt (le_element h _ _ _ _)) ?_))
    intro x
    unfold elementNext
    cases x with
    | none => exact Le.refl _
    | some x => exact ih _

theorem le_composeLoop (h : RecLe r r') (ctx : Ctx) (prev : Bytes) (es : List (UInt8 × Nat))
    (rem : Bytes) : Le (composeLoop r ctx prev es rem) (composeLoop r' ctx prev es rem) := by
  induction es generalizing rem with
  | nil => exact Le.refl _
  | cons e es ih =>
    unfold composeLoop
    refine Le.bind (Le.refl _) (fun _ => ?_)
    refine Le.bind (le_elementValue h _ _ _ _) (fun x => ?_)
    unfold composeNext
    cases x with
    | none => exact Le.refl _
    | some x => exact ih _

theorem le_line (h : RecLe r r') (idx : Nat) (g : GLine) (ctx : Ctx) (prev cur : Bytes) :
    Le (line r idx g ctx prev cur) (line r' idx g ctx prev cur) := by
  have hl : ∀ (cs : List Container) (st : LnState),
      Le (lineLoop r ctx prev cs st) (lineLoop r' ctx prev cs st) := by
    intro cs
    induction cs with
    | nil => intro st; exact Le.refl _
    | cons c cs ih =>
      intro st
      unfold lineLoop
      refine Le.bind (Le.refl _) (fun _ => ?_)
      refine Le.bind ?_ (fun _ => ih _)
      unfold lineStep
      cases c with
      | compose cmp => exact Le.bind (le_composeLoop h _ _ _ _) (fun _ => Le.refl _)
      | element min max content =>
        exact Le.bind (le_elementLoop h _ _ _ _ _) (fun _ => Le.refl _)
  unfold line
  exact Le.bind (hl _ _) (fun _ => Le.refl _)

theorem le_escapeStep (h : RecLe r r') (idx : Nat) (g : GLine) (ctx : Ctx) (st : RvState) :
    Le (escapeStep r idx g ctx st) (escapeStep r' idx g ctx st) := by
  unfold escapeStep
  cases ctx.escape with
  | none => exact Le.refl _
  | some esc =>
    refine Le.bind (Le.attempt (h _ _ _ _)) (fun x => ?_)
    unfold escapeLine
    cases x with
    | none => exact Le.refl _
    | some t =>
      exact Le.ite (Le.bind (Le.attempt (le_line h _ _ _ _ _)) (fun _ => Le.refl _)) (Le.refl _)

theorem le_reverseLoop (h : RecLe r r') (idx : Nat) (g : GLine) (ctx : Ctx) (k : Nat) (st : RvState) :
    Le (reverseLoop r idx g ctx k st) (reverseLoop r' idx g ctx k st) := by
  induction k generalizing st with
  | zero => exact Le.refl _
  | succ k ih =>
    unfold reverseLoop
    refine Le.bind (Le.refl _) (fun _ => ?_)
    refine Le.ite (Le.refl _) (Le.bind (le_escapeStep h _ _ _ _) (fun st' => ?_))
    refine Le.bind (Le.attempt (le_line h _ _ _ _ _)) (fun x => ?_)
    unfold reverseNext
    cases x with
    | some _ => exact Le.refl _
    | none =>
      cases st'.rem with
      | nil => exact Le.refl _
      | cons b rest => exact ih _

theorem le_blockLoop (h : RecLe r r') (tok : Token) (ctx : Ctx) (prev cur : Bytes) (idx : Nat)
    (gs : List GLine) (acc : List TLine) :
    Le (blockLoop r tok ctx prev cur idx gs acc) (blockLoop r' tok ctx prev cur idx gs acc) := by
  induction gs generalizing idx acc with
  | nil => exact Le.refl _
  | cons g gs ih =>
    unfold blockLoop
    refine Le.bind (Le.refl _) (fun _ => ?_)
    refine Le.bind (Le.refl _) (fun skip => Le.ite (ih _ _) ?_)
    refine Le.bind (Le.refl _) (fun _ => Le.ite ?_ ?_)
    · unfold reverseLine
      exact Le.bind (le_reverseLoop h _ _ _ _ _) (fun _ => Le.refl _)
    · refine Le.bind (Le.attempt (le_line h _ _ _ _ _)) (fun x => ?_)
      unfold lineNext
      cases x with
      | none => exact ih _ _
      | some x => exact Le.ite (Le.refl _) (ih _ _)

theorem le_tokenBody (h : RecLe r r') : RecLe (tokenBody r) (tokenBody r') := by
  intro t ctx prev cur
  unfold tokenBody
  refine Le.bind (Le.refl _) (fun _ => ?_)
  refine Le.bind (Le.refl _) (fun _ => ?_)
  refine Le.bind (Le.thenDelete _ (le_blockLoop h _ _ _ _ _ _ _)) (fun _ => ?_)
  exact Le.ite (Le.refl _) (Le.bind (le_skipChannels h _ _ _) (fun _ => Le.refl _))

theorem token_le_succ (n : Nat) : RecLe (token n) (token (n + 1)) := by
  induction n with
  | zero => intro t ctx prev cur; exact Le.oof _
  | succ n ih => exact le_tokenBody ih

theorem token_mono {n m : Nat} (h : n ≤ m) {t : Token} {ctx : Ctx} {prev cur : Bytes} {s : Stk}
    (hne : (token n t ctx prev cur s).1 ≠ .oof) :
    token m t ctx prev cur s = token n t ctx prev cur s := by
  induction m, h using Nat.le_induction with
  | base => rfl
  | succ m _ ih =>
    rcases token_le_succ m t ctx prev cur s with h' | h'
    · rw [ih] at h'; exact absurd h' hne
    · rw [← h', ih]


/-- Two nesting bounds that suffice give the same count of steps. -/
theorem steps_unique {g : Grammar} {input : Bytes} {n m : Nat} (hn : execute n g input ≠ .oof) (hm : execute m g input ≠ .oof) :
    steps n g input = steps m g input := by
  rw [← erase_execute] at hn hm
  unfold steps
  rcases Nat.le_total n m with h | h
  · rw [token_mono h hn]
  · rw [token_mono h hm]

end Rodkina.Ast.Cost
