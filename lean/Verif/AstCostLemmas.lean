import Verif.AstCost
import Verif.AstMono

/-!
# The parser with a count of steps is the parser
-/

namespace Rodkina.Ast.Cost

open CM

/-- A computation without its count. -/
def erase {α : Type} (m : CM α) : M α := fun s => ((m s).1, (m s).2.1)

theorem erase_pure {α : Type} (a : α) : erase (pure a : CM α) = pure a := rfl

theorem erase_lift {α : Type} (m : M α) : erase (lift m) = m := rfl

theorem erase_bind {α β : Type} (m : CM α) (f : α → CM β) : erase (m >>= f) = erase m >>= fun a => erase (f a) := by
  funext s
  show erase (andThen m f) s = M.andThen (erase m) _ s
  unfold erase andThen M.andThen
  beta_reduce
  generalize m s = r
  obtain ⟨o, s', k⟩ := r
  cases o <;> rfl

theorem erase_tick {β : Type} (f : Unit → M β) : (erase tick >>= f) = f () := rfl

theorem erase_attempt {α : Type} (m : CM α) : erase (attempt m) = M.attempt (erase m) := by
  funext s
  unfold erase attempt M.attempt
  beta_reduce
  generalize m s = r
  obtain ⟨o, s', k⟩ := r
  cases o <;> rfl

theorem erase_fresh {α : Type} (m : CM α) : erase (fresh m) = M.fresh (erase m) := rfl

theorem erase_thenDelete {α : Type} (n : String) (m : CM α) : erase (thenDelete n m) = M.thenDelete n (erase m) := rfl

theorem erase_ite {α : Type} (c : Prop) [Decidable c] (a b : CM α) : erase (if c then a else b) = if c then erase a else erase b := by
  split <;> rfl

/-- The recursive call without its count. -/
def eraseRec (r : Rec) : Ast.Rec := fun t ctx p c => erase (r t ctx p c)

variable (r : Rec)

theorem erase_condMatch (t : Option Token) (d : Bytes) : erase (condMatch r t d) = Ast.condMatch (eraseRec r) t d := by
  cases t with
  | none => rfl
  | some t => simp only [condMatch, Ast.condMatch, erase_bind, erase_fresh, erase_pure]; rfl

theorem erase_channel (c : Channel) (p d : Bytes) : erase (channel r c p d) = Ast.channel (eraseRec r) c p d := by
  simp only [channel, Ast.channel, channelCondition, Ast.channelCondition, erase_bind, erase_fresh, erase_pure, erase_condMatch]
  rfl

theorem erase_channelRound (chs : List Channel) (st : ChState) :
    erase (channelRound r chs st) = Ast.channelRound (eraseRec r) chs st := by
  induction chs generalizing st with
  | nil => rfl
  | cons c cs ih => simp only [channelRound, Ast.channelRound, erase_tick, erase_bind, erase_attempt, erase_channel, erase_lift, ih]

theorem erase_channelLoop (chs : List Channel) (k : Nat) (st : ChState) :
    erase (channelLoop r chs k st) = Ast.channelLoop (eraseRec r) chs k st := by
  induction k generalizing st with
  | zero => rfl
  | succ k ih => simp only [channelLoop, Ast.channelLoop, erase_tick, erase_bind, erase_channelRound, erase_ite, erase_pure, ih]

theorem erase_skipChannels (chs : List Channel) (p d : Bytes) :
    erase (skipChannels r chs p d) = Ast.skipChannels (eraseRec r) chs p d := by
  simp only [skipChannels, Ast.skipChannels, channels, Ast.channels, erase_bind, erase_channelLoop, erase_ite, erase_pure, erase_attempt,
    erase_lift]

theorem erase_elementValue (n : UInt8) (ctx : Ctx) (p d : Bytes) :
    erase (elementValue r n ctx p d) = Ast.elementValue (eraseRec r) n ctx p d := by
  simp only [elementValue, Ast.elementValue, erase_bind, erase_skipChannels, erase_lift]

theorem erase_elementContent (c : Content) (ctx : Ctx) (p d : Bytes) :
    erase (elementContent r c ctx p d) = Ast.elementContent (eraseRec r) c ctx p d := by
  cases c <;> simp only [elementContent, Ast.elementContent, external, Ast.external, erase_bind, erase_fresh, erase_pure, erase_lift,
    erase_ite, erase_elementValue] <;> rfl

theorem erase_element (c : Content) (ctx : Ctx) (p d : Bytes) :
    erase (element r c ctx p d) = Ast.element (eraseRec r) c ctx p d := by
  simp only [element, Ast.element, erase_bind, erase_ite, erase_lift, erase_elementContent]

theorem erase_elementLoop (c : Content) (max : Option Nat) (ctx : Ctx) (k : Nat) (st : ElState) :
    erase (elementLoop r c max ctx k st) = Ast.elementLoop (eraseRec r) c max ctx k st := by
  induction k generalizing st with
  | zero => rfl
  | succ k ih =>
    have hn : ∀ x, erase (elementNext st (elementLoop r c max ctx k) x) =
        Ast.elementNext st (Ast.elementLoop (eraseRec r) c max ctx k) x := by
      intro x
      cases x with
      | none => rfl
      | some x => exact ih _
    simp only [elementLoop, Ast.elementLoop, erase_tick, erase_ite, erase_bind, erase_pure, erase_attempt, erase_element, hn]

theorem erase_composeLoop (ctx : Ctx) (p : Bytes) (es : List (UInt8 × Nat)) (d : Bytes) :
    erase (composeLoop r ctx p es d) = Ast.composeLoop (eraseRec r) ctx p es d := by
  induction es generalizing d with
  | nil => rfl
  | cons e es ih =>
    have hn : ∀ x, erase (composeNext (composeLoop r ctx p es) x) =
        Ast.composeNext (Ast.composeLoop (eraseRec r) ctx p es) x := by
      intro x
      cases x with
      | none => rfl
      | some x => exact ih _
    simp only [composeLoop, Ast.composeLoop, erase_tick, erase_bind, erase_elementValue, hn]

theorem erase_lineStep (ctx : Ctx) (p : Bytes) (c : Container) (st : LnState) :
    erase (lineStep r ctx p c st) = Ast.lineStep (eraseRec r) ctx p c st := by
  cases c <;> simp only [lineStep, Ast.lineStep, erase_bind, erase_composeLoop, erase_elementLoop, erase_ite, erase_pure, erase_lift]

theorem erase_lineLoop (ctx : Ctx) (p : Bytes) (cs : List Container) (st : LnState) :
    erase (lineLoop r ctx p cs st) = Ast.lineLoop (eraseRec r) ctx p cs st := by
  induction cs generalizing st with
  | nil => rfl
  | cons c cs ih => simp only [lineLoop, Ast.lineLoop, erase_tick, erase_bind, erase_lineStep, ih]

theorem erase_line (idx : Nat) (g : GLine) (ctx : Ctx) (p d : Bytes) :
    erase (line r idx g ctx p d) = Ast.line (eraseRec r) idx g ctx p d := by
  simp only [line, Ast.line, erase_bind, erase_lineLoop, erase_pure]

theorem erase_escapeStep (idx : Nat) (g : GLine) (ctx : Ctx) (st : RvState) :
    erase (escapeStep r idx g ctx st) = Ast.escapeStep (eraseRec r) idx g ctx st := by
  have hn : ∀ x, erase (escapeLine r idx g ctx st x) = Ast.escapeLine (eraseRec r) idx g ctx st x := by
    intro x
    cases x with
    | none => rfl
    | some t => simp only [escapeLine, Ast.escapeLine, erase_ite, erase_bind, erase_attempt, erase_line, erase_lift, erase_pure]
  unfold escapeStep Ast.escapeStep
  cases ctx.escape with
  | none => rfl
  | some e => simp only [erase_bind, erase_attempt, hn]; rfl

theorem erase_reverseLoop (idx : Nat) (g : GLine) (ctx : Ctx) (k : Nat) (st : RvState) :
    erase (reverseLoop r idx g ctx k st) = Ast.reverseLoop (eraseRec r) idx g ctx k st := by
  induction k generalizing st with
  | zero => rfl
  | succ k ih =>
    have hn : ∀ st' x, erase (reverseNext st' (reverseLoop r idx g ctx k) x) =
        Ast.reverseNext st' (Ast.reverseLoop (eraseRec r) idx g ctx k) x := by
      intro st' x
      cases x with
      | some x => rfl
      | none =>
        unfold reverseNext Ast.reverseNext
        cases st'.rem with
        | nil => rfl
        | cons b rest => exact ih _
    simp only [reverseLoop, Ast.reverseLoop, erase_tick, erase_ite, erase_bind, erase_pure, erase_attempt, erase_line, erase_escapeStep, hn]

theorem erase_blockLoop (tok : Token) (ctx : Ctx) (p d : Bytes) (idx : Nat) (gs : List GLine) (acc : List TLine) :
    erase (blockLoop r tok ctx p d idx gs acc) = Ast.blockLoop (eraseRec r) tok ctx p d idx gs acc := by
  induction gs generalizing idx acc with
  | nil => rfl
  | cons g gs ih =>
    have hn : ∀ x, erase (lineNext acc (blockLoop r tok ctx p d (idx + 1) gs) x) =
        Ast.lineNext acc (Ast.blockLoop (eraseRec r) tok ctx p d (idx + 1) gs) x := by
      intro x
      cases x with
      | none => exact ih _ _
      | some x => simp only [lineNext, Ast.lineNext, erase_ite, erase_pure, ih]
    simp only [blockLoop, Ast.blockLoop, erase_tick, erase_ite, erase_bind, erase_pure, erase_attempt, erase_line, erase_lift, ih, hn,
      reverseLine, Ast.reverseLine, erase_reverseLoop]

theorem erase_tokenBody (t : Token) (ctx : Ctx) (p d : Bytes) :
    erase (tokenBody r t ctx p d) = Ast.tokenBody (eraseRec r) t ctx p d := by
  simp only [tokenBody, Ast.tokenBody, erase_tick, erase_ite, erase_bind, erase_pure, erase_lift, erase_thenDelete, erase_blockLoop,
    erase_skipChannels]

theorem erase_token (n : Nat) : eraseRec (token n) = Ast.token n := by
  induction n with
  | zero => rfl
  | succ n ih =>
    funext t ctx p d
    show erase (tokenBody (token n) t ctx p d) = _
    rw [erase_tokenBody, ih]
    rfl

theorem erase_execute (n : Nat) (g : Grammar) (input : Bytes) :
    (token n g.root ⟨none, g.channels, false⟩ [] input []).1 = execute n g input := by
  have := congrFun (congrFun (congrFun (congrFun (congrFun (erase_token n) g.root) ⟨none, g.channels, false⟩) []) input) []
  exact congrArg Prod.fst this

end Rodkina.Ast.Cost
