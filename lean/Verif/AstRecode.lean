import Verif.AstBare
import Mathlib.Data.List.Basic

/-!
# No byte and no name is special to the parser

The bytes and names of a grammar and the bytes of an input replaced by others, one for one; every function of the parser does the same on the
one and on the other.
-/

namespace Rodkina.Ast

open M

/-! ## Other bytes -/

/-- A replacement of bytes and names. -/
class Recoding where
  /-- The byte written instead. -/
  code : UInt8 → UInt8
  /-- The name written instead. -/
  title : String → String

/-- The replacement keeps bytes apart, and names apart. -/
class Recoding.Faithful [Recoding] : Prop where
  /-- Bytes that become equal are equal. -/
  inj : Function.Injective Recoding.code
  /-- Names that become equal are equal. -/
  titles : Function.Injective Recoding.title

variable [Recoding]

/-- Replaced bytes. -/
def enc (b : Bytes) : Bytes := b.map Recoding.code

/-- The bytes of a compose (libs/asts/domain/grammars/compose.go:3-28) replaced. -/
def Compose.recode (c : Compose) : Compose := ⟨Recoding.title c.name, c.list.map (fun e => (Recoding.code e.1, e.2))⟩

/-- The bytes of a suite (libs/asts/domain/grammars/suite.go:3-40) replaced. -/
def Suite.recode (s : Suite) : Suite := ⟨s.isValid, s.content.recode⟩

mutual
/-- The bytes of a token (libs/asts/domain/grammars/token.go:3-56), and of all that is nested in it, replaced. -/
def Token.recode : Token → Token
  | .mk n ls ss => .mk (Recoding.title n) (linesRecode ls) (ss.map Suite.recode)
/-- All lines. -/
def linesRecode : List GLine → List GLine
  | [] => []
  | g :: gs => GLine.recode g :: linesRecode gs
/-- One line (libs/asts/domain/grammars/line.go:3-20). -/
def GLine.recode : GLine → GLine
  | .mk cs => .mk (containersRecode cs)
/-- All containers. -/
def containersRecode : List Container → List Container
  | [] => []
  | c :: cs => Container.recode c :: containersRecode cs
/-- One container (libs/asts/domain/grammars/container.go:3-59). -/
def Container.recode : Container → Container
  | .element min max c => .element min max (Content.recode c)
  | .compose c => .compose c.recode
/-- One content (libs/asts/domain/grammars/elementcontent.go:7-92). -/
def Content.recode : Content → Content
  | .value n b => .value (Recoding.title n) (Recoding.code b)
  | .external n g => .external (Recoding.title n) (Grammar.recode g)
  | .token t => .token (Token.recode t)
  | .everything n ex esc => .everything (Recoding.title n) (Token.recode ex) (optionRecode esc)
  | .recursive n => .recursive (Recoding.title n)
/-- An escape token or a condition. -/
def optionRecode : Option Token → Option Token
  | none => none
  | some t => some (Token.recode t)
/-- A grammar (libs/asts/domain/grammars/grammar.go:3-46). -/
def Grammar.recode : Grammar → Grammar
  | .mk root chs => .mk (Token.recode root) (channelsRecode chs)
/-- All channels. -/
def channelsRecode : List Channel → List Channel
  | [] => []
  | c :: cs => Channel.recode c :: channelsRecode cs
/-- One channel (libs/asts/domain/grammars/channel.go:3-46). -/
def Channel.recode : Channel → Channel
  | .mk t p n => .mk (Token.recode t) (optionRecode p) (optionRecode n)
end

mutual
/-- The bytes of a tree and of its grammar (libs/asts/domain/trees/tree.go:9-39) replaced. -/
def Tree.recode : Tree → Tree
  | .mk g b suf rem => .mk g.recode (Block.recode b) (treesRecode suf) (enc rem)
/-- All trees. -/
def treesRecode : List Tree → List Tree
  | [] => []
  | t :: ts => Tree.recode t :: treesRecode ts
/-- A block. -/
def Block.recode : Block → Block
  | .mk ls none => .mk (tlinesRecode ls) none
  | .mk ls (some l) => .mk (tlinesRecode ls) (some (TLine.recode l))
/-- All lines of a block. -/
def tlinesRecode : List TLine → List TLine
  | [] => []
  | l :: ls => TLine.recode l :: tlinesRecode ls
/-- A line. -/
def TLine.recode : TLine → TLine
  | .mk i g rev es => .mk i g.recode rev (telementsRecode es)
/-- All elements. -/
def telementsRecode : List TElement → List TElement
  | [] => []
  | e :: es => TElement.recode e :: telementsRecode es
/-- An element. -/
def TElement.recode : TElement → TElement
  | .mk g xs => .mk (g.map Container.recode) (tcontentsRecode xs)
/-- All contents. -/
def tcontentsRecode : List TContent → List TContent
  | [] => []
  | x :: xs => TContent.recode x :: tcontentsRecode xs
/-- A content. -/
def TContent.recode : TContent → TContent
  | .value p b => .value (treesRecode p) (Recoding.code b)
  | .tree t => .tree (Tree.recode t)
end

/-! ## Lists -/

theorem enc_nil : enc [] = [] := rfl

theorem enc_append (a b : Bytes) : enc (a ++ b) = enc a ++ enc b := List.map_append

theorem enc_length (a : Bytes) : (enc a).length = a.length := List.length_map _

theorem enc_isEmpty (a : Bytes) : (enc a).isEmpty = a.isEmpty := List.isEmpty_map

theorem enc_drop (k : Nat) (a : Bytes) : enc (a.drop k) = (enc a).drop k := List.map_drop

theorem enc_take (k : Nat) (a : Bytes) : enc (a.take k) = (enc a).take k := List.map_take


theorem linesRecode_eq (ls : List GLine) : linesRecode ls = ls.map GLine.recode := by
  induction ls with
  | nil => rfl
  | cons l ls ih => rw [linesRecode, ih]; rfl

theorem containersRecode_eq (cs : List Container) : containersRecode cs = cs.map Container.recode := by
  induction cs with
  | nil => rfl
  | cons c cs ih => rw [containersRecode, ih]; rfl

theorem channelsRecode_eq (cs : List Channel) : channelsRecode cs = cs.map Channel.recode := by
  induction cs with
  | nil => rfl
  | cons c cs ih => rw [channelsRecode, ih]; rfl

theorem treesRecode_eq (ts : List Tree) : treesRecode ts = ts.map Tree.recode := by
  induction ts with
  | nil => rfl
  | cons t ts ih => rw [treesRecode, ih]; rfl

theorem tlinesRecode_eq (ls : List TLine) : tlinesRecode ls = ls.map TLine.recode := by
  induction ls with
  | nil => rfl
  | cons l ls ih => rw [tlinesRecode, ih]; rfl

theorem telementsRecode_eq (es : List TElement) : telementsRecode es = es.map TElement.recode := by
  induction es with
  | nil => rfl
  | cons e es ih => rw [telementsRecode, ih]; rfl

theorem tcontentsRecode_eq (xs : List TContent) : tcontentsRecode xs = xs.map TContent.recode := by
  induction xs with
  | nil => rfl
  | cons x xs ih => rw [tcontentsRecode, ih]; rfl

theorem optionRecode_eq (o : Option Token) : optionRecode o = o.map Token.recode := by
  cases o <;> rfl

/-! ## What stays -/

theorem Compose.recode_name (c : Compose) : c.recode.name = Recoding.title c.name := rfl

theorem Compose.recode_amount (c : Compose) : c.recode.amount = c.amount := by
  simp only [Compose.recode, Compose.amount, List.map_map]
  rfl

theorem Token.recode_name (t : Token) : t.recode.name = Recoding.title t.name := by
  obtain ⟨n, ls, ss⟩ := t; rfl

theorem Token.recode_lines (t : Token) : t.recode.lines = t.lines.map GLine.recode := by
  obtain ⟨n, ls, ss⟩ := t; exact linesRecode_eq ls

theorem GLine.recode_containers (g : GLine) : g.recode.containers = g.containers.map Container.recode := by
  obtain ⟨cs⟩ := g; exact containersRecode_eq cs

theorem Content.recode_name (c : Content) : c.recode.name = Recoding.title c.name := by
  cases c <;> simp [Content.recode, Content.name, Token.recode_name]

theorem Container.recode_name (c : Container) : c.recode.name = Recoding.title c.name := by
  cases c <;> simp [Container.recode, Container.name, Content.recode_name, Compose.recode_name]

theorem Grammar.recode_root (g : Grammar) : g.recode.root = g.root.recode := by
  obtain ⟨r, cs⟩ := g; rfl

theorem Grammar.recode_channels (g : Grammar) : g.recode.channels = g.channels.map Channel.recode := by
  obtain ⟨r, cs⟩ := g; exact channelsRecode_eq cs

theorem Channel.recode_token (c : Channel) : c.recode.token = c.token.recode := by
  obtain ⟨t, p, n⟩ := c; rfl

theorem Channel.recode_previous (c : Channel) : c.recode.previous = c.previous.map Token.recode := by
  obtain ⟨t, p, n⟩ := c; exact optionRecode_eq p

theorem Channel.recode_next (c : Channel) : c.recode.next = c.next.map Token.recode := by
  obtain ⟨t, p, n⟩ := c; exact optionRecode_eq n

theorem Tree.recode_remaining (t : Tree) : t.recode.remaining = enc t.remaining := by
  obtain ⟨g, b, s, r⟩ := t; rfl

theorem Tree.recode_block (t : Tree) : t.recode.block = t.block.recode := by
  obtain ⟨g, b, s, r⟩ := t; rfl

theorem Block.recode_eq (ls : List TLine) (s : Option TLine) :
    (Block.mk ls s).recode = .mk (ls.map TLine.recode) (s.map TLine.recode) := by
  cases s <;> simp [Block.recode, tlinesRecode_eq]

theorem Tree.recode_isSuccessful (t : Tree) : t.recode.isSuccessful = t.isSuccessful := by
  obtain ⟨g, ⟨ls, s⟩, suf, r⟩ := t
  simp only [Tree.isSuccessful, Tree.recode, Tree.block, Block.recode_eq, Block.successful, Option.isSome_map]

mutual
theorem Tree.recode_bytes (ch : Bool) : ∀ t : Tree, t.recode.bytes ch = enc (t.bytes ch)
  | .mk g (.mk ls none) suf rem => by simp [Tree.recode, Block.recode, Tree.bytes, Block.bytesWith, enc_nil]
  | .mk g (.mk ls (some l)) suf rem => by
    simp [Tree.recode, Block.recode, Tree.bytes, Block.bytesWith, TLine.recode_bytes ch l, treesRecode_bytes ch suf]
    cases ch <;> simp [enc_append]
theorem treesRecode_bytes (ch : Bool) : ∀ ts : List Tree, treesBytes ch (treesRecode ts) = enc (treesBytes ch ts)
  | [] => by simp [treesRecode, treesBytes, enc_nil]
  | t :: ts => by simp [treesRecode, treesBytes, Tree.recode_bytes ch t, treesRecode_bytes ch ts, enc_append]
theorem TLine.recode_bytes (ch : Bool) : ∀ l : TLine, l.recode.bytes ch = enc (l.bytes ch)
  | .mk i g rev es => by simp [TLine.recode, TLine.bytes, telementsRecode_bytes ch es]
theorem telementsRecode_bytes (ch : Bool) : ∀ es : List TElement, elementsBytes ch (telementsRecode es) = enc (elementsBytes ch es)
  | [] => by simp [telementsRecode, elementsBytes, enc_nil]
  | e :: es => by simp [telementsRecode, elementsBytes, TElement.recode_bytes ch e, telementsRecode_bytes ch es, enc_append]
theorem TElement.recode_bytes (ch : Bool) : ∀ e : TElement, e.recode.bytes ch = enc (e.bytes ch)
  | .mk g xs => by simp [TElement.recode, TElement.bytes, tcontentsRecode_bytes ch xs]
theorem tcontentsRecode_bytes (ch : Bool) : ∀ xs : List TContent, contentsBytes ch (tcontentsRecode xs) = enc (contentsBytes ch xs)
  | [] => by simp [tcontentsRecode, contentsBytes, enc_nil]
  | x :: xs => by simp [tcontentsRecode, contentsBytes, TContent.recode_bytes ch x, tcontentsRecode_bytes ch xs, enc_append]
theorem TContent.recode_bytes (ch : Bool) : ∀ x : TContent, x.recode.bytes ch = enc (x.bytes ch)
  | .value p b => by
    simp [TContent.recode, TContent.bytes, treesRecode_bytes ch p]
    cases ch <;> simp [enc]
  | .tree t => by simp [TContent.recode, TContent.bytes, Tree.recode_bytes ch t]
end

theorem TElement.recode_isSuccessful (e : TElement) : e.recode.isSuccessful = e.isSuccessful := by
  obtain ⟨g, xs⟩ := e
  rcases g with _ | ⟨min, max, c⟩ | c <;>
    simp [TElement.recode, TElement.isSuccessful, Container.recode, tcontentsRecode_eq, Compose.recode_amount]

theorem TElement.recode_key (e : TElement) : e.recode.key = e.key.map Recoding.title := by
  obtain ⟨g, xs⟩ := e
  rcases g with _ | c <;> simp [TElement.recode, TElement.key, TElement.grammar, Container.recode_name]

theorem TElement.recode_amount (e : TElement) : e.recode.amount = e.amount := by
  obtain ⟨g, xs⟩ := e
  simp [TElement.recode, TElement.amount, TElement.contents, tcontentsRecode_eq]

theorem fetchElement_recode [Recoding.Faithful] (es : List TElement) (name : String) :
    fetchElement (es.map TElement.recode) (Recoding.title name) = (fetchElement es name).map TElement.recode := by
  unfold fetchElement
  rw [← List.map_reverse, List.find?_map]
  congr 1
  congr 1
  funext e
  simp only [Function.comp, TElement.recode_key]
  cases e.key with
  | none => rfl
  | some k =>
    by_cases hk : k = name
    · simp [hk]
    · have : Recoding.title k ≠ Recoding.title name := fun h => hk (Recoding.Faithful.titles h)
      simp [hk, this]

theorem containerSatisfied_recode [Recoding.Faithful] (es : List TElement) (c : Container) :
    containerSatisfied (es.map TElement.recode) c.recode = containerSatisfied es c := by
  cases c with
  | element min max c =>
    simp only [Container.recode, containerSatisfied, Content.recode_name, fetchElement_recode, Option.any_map]
    congr 2
    funext e
    simp [TElement.recode_amount]
  | compose c =>
    simp only [Container.recode, containerSatisfied, Compose.recode_name, Compose.recode_amount, fetchElement_recode, Option.any_map]
    congr 1
    funext e
    simp [TElement.recode_amount]

theorem TLine.recode_isSuccessful [Recoding.Faithful] (l : TLine) : l.recode.isSuccessful = l.isSuccessful := by
  obtain ⟨i, g, rev, es⟩ := l
  simp only [TLine.recode, TLine.isSuccessful, telementsRecode_eq, GLine.recode_containers, List.all_map, List.isEmpty_map]
  have h1 : (TElement.isSuccessful ∘ TElement.recode) = TElement.isSuccessful := by
    funext e; exact e.recode_isSuccessful
  have h2 : (containerSatisfied (es.map TElement.recode) ∘ Container.recode) = containerSatisfied es := by
    funext c; exact containerSatisfied_recode es c
  rw [h1, h2]

theorem mkBlock_recode [Recoding.Faithful] (ls : List TLine) : mkBlock (ls.map TLine.recode) = (mkBlock ls).recode := by
  unfold mkBlock
  rw [Block.recode_eq, List.find?_map]
  congr 2
  congr 1
  funext l
  exact l.recode_isSuccessful

theorem TContent.recode_isSuccessful (x : TContent) : x.recode.isSuccessful = x.isSuccessful := by
  cases x with
  | value p b => rfl
  | tree t => exact t.recode_isSuccessful

/-! ## Simulation -/

/-- An entry of the map, the recorded data replaced too. -/
def Entry.recode (e : Entry) : Entry := ⟨e.token.recode, e.lines.map (fun x => (x.1, enc x.2))⟩

/-- The map with other bytes. -/
def Stk.recode (s : Stk) : Stk := s.map (fun e => (Recoding.title e.1, e.2.recode))

/-- The parameters with other bytes. -/
def Ctx.recode (c : Ctx) : Ctx := ⟨c.escape.map Token.recode, c.channels.map Channel.recode, c.reverse⟩

section Maps

variable [Recoding.Faithful]

theorem title_beq (a b : String) : (Recoding.title a == Recoding.title b) = (a == b) := by
  by_cases h : a = b
  · simp [h]
  · have : Recoding.title a ≠ Recoding.title b := fun x => h (Recoding.Faithful.titles x)
    simp [h, this]

theorem Stk.recode_get (s : Stk) (k : String) :
    s.recode.get (Recoding.title k) = (s.get k).map Entry.recode := by
  unfold Stk.recode Stk.get
  induction s with
  | nil => rfl
  | cons e s ih =>
    obtain ⟨a, e⟩ := e
    simp only [List.map_cons, List.lookup, title_beq]
    cases k == a with
    | true => rfl
    | false => exact ih

theorem Stk.recode_del (s : Stk) (k : String) : Stk.recode (s.del k) = s.recode.del (Recoding.title k) := by
  unfold Stk.recode Stk.del
  rw [List.filter_map]
  congr 2
  funext e
  simp only [Function.comp, bne, title_beq]

theorem Stk.recode_put (s : Stk) (k : String) (e : Entry) :
    Stk.recode (s.put k e) = s.recode.put (Recoding.title k) e.recode := by
  show (Recoding.title k, e.recode) :: Stk.recode (s.del k) = _
  rw [Stk.recode_del]
  rfl

end Maps

/-- The one computation on the recoded map does what the other does, values changed by `f`. -/
def RcSim {α β : Type} (m : M α) (f : α → β) (m' : M β) : Prop :=
  ∀ s : Stk, m' s.recode = ((m s).1.map f, (m s).2.recode)

namespace RcSim

variable {α β γ δ : Type}

theorem pure' {a : α} {f : α → β} {b : β} (h : b = f a) : RcSim (pure a : M α) f (pure b) := fun s => by
  subst h; rfl

theorem fail' (f : α → β) : RcSim (M.fail : M α) f M.fail := fun _ => rfl
theorem crash' (f : α → β) : RcSim (M.crash : M α) f M.crash := fun _ => rfl
theorem oof' (f : α → β) : RcSim (M.oof : M α) f M.oof := fun _ => rfl

theorem bind' {m : M α} {f : α → β} {m' : M β} {k : α → M γ} {g : γ → δ} {k' : β → M δ} (hm : RcSim m f m')
    (hk : ∀ a, RcSim (k a) g (k' (f a))) : RcSim (m >>= k) g (m' >>= k') := by
  intro s
  rw [bind_apply, bind_apply, hm s]
  generalize m s = r
  obtain ⟨o, s'⟩ := r
  cases o with
  | ok a => exact hk a s'
  | err => rfl
  | panic => rfl
  | oof => rfl

theorem attempt' {m : M α} {f : α → β} {m' : M β} (hm : RcSim m f m') :
    RcSim (M.attempt m) (Option.map f) (M.attempt m') := by
  intro s
  unfold M.attempt
  rw [hm s]
  generalize m s = r
  obtain ⟨o, s'⟩ := r
  cases o <;> rfl

theorem fresh' {m : M α} {f : α → β} {m' : M β} (hm : RcSim m f m') : RcSim (M.fresh m) f (M.fresh m') := by
  intro s
  unfold M.fresh
  have := hm []
  rw [show Stk.recode [] = [] from rfl] at this
  rw [this]

theorem thenDelete' [Recoding.Faithful] {m : M α} {f : α → β} {m' : M β} (name : String) (hm : RcSim m f m') :
    RcSim (M.thenDelete name m) f (M.thenDelete (Recoding.title name) m') := by
  intro s
  unfold M.thenDelete
  rw [hm s, Stk.recode_del]

theorem ite' {c c' : Prop} [Decidable c] [Decidable c'] (hc : c ↔ c') {a b : M α} {f : α → β} {a' b' : M β}
    (h1 : RcSim a f a') (h2 : RcSim b f b') : RcSim (if c then a else b) f (if c' then a' else b') := by
  by_cases h : c
  · rw [if_pos h, if_pos (hc.mp h)]; exact h1
  · rw [if_neg h, if_neg (fun x => h (hc.mpr x))]; exact h2

end RcSim

/-- The one call does what the other does. -/
def RcRec (r r' : Rec) : Prop := ∀ t ctx prev cur, RcSim (r t ctx prev cur) Tree.recode (r' t.recode ctx.recode (enc prev) (enc cur))

set_option linter.unusedSectionVars false

variable {r r' : Rec} [Recoding.Faithful]

theorem rc_condMatch (h : RcRec r r') (o : Option Token) (d : Bytes) :
    RcSim (condMatch r o d) id (condMatch r' (o.map Token.recode) (enc d)) := by
  unfold condMatch
  cases o with
  | none => exact RcSim.pure' rfl
  | some t => exact RcSim.bind' (RcSim.fresh' (h t Ctx.plain [] d)) (fun _ => RcSim.pure' rfl)

theorem rc_channel (h : RcRec r r') (c : Channel) (prev cur : Bytes) :
    RcSim (channel r c prev cur) (Option.map Tree.recode) (channel r' c.recode (enc prev) (enc cur)) := by
  unfold channel
  rw [Channel.recode_token]
  refine RcSim.bind' (RcSim.fresh' (h c.token Ctx.plain prev cur)) (fun t => ?_)
  refine RcSim.bind' (f := id) ?_ (fun b => RcSim.pure' ?_)
  · unfold channelCondition
    rw [Channel.recode_previous, Channel.recode_next, Tree.recode_remaining]
    exact RcSim.bind' (rc_condMatch h _ _) (fun _ => RcSim.bind' (rc_condMatch h _ _) (fun _ => RcSim.pure' rfl))
  · cases b <;> rfl

/-- The local variables of `channels` with other bytes. -/
def ChState.recode (st : ChState) : ChState := ⟨st.list.map Tree.recode, enc st.prev, enc st.rem⟩

theorem rc_sliceFrom (l : Bytes) (k : Nat) : RcSim (sliceFrom l k) enc (sliceFrom (enc l) k) := by
  unfold sliceFrom
  rw [enc_length, ← enc_drop]
  exact RcSim.ite' Iff.rfl (RcSim.pure' rfl) (RcSim.crash' _)

theorem rc_channelApply (st : ChState) (x : Option (Option Tree)) :
    RcSim (channelApply st x) ChState.recode (channelApply st.recode (x.map (Option.map Tree.recode))) := by
  rcases x with _ | _ | t
  · exact RcSim.pure' rfl
  · exact RcSim.pure' rfl
  · show RcSim (sliceFrom st.rem (t.bytes true).length >>= _) _ (sliceFrom (enc st.rem) (t.recode.bytes true).length >>= _)
    rw [Tree.recode_bytes, enc_length]
    refine RcSim.bind' (rc_sliceFrom _ _) (fun rem => RcSim.ite' ?_ (RcSim.pure' rfl) (RcSim.pure' ?_))
    · simp [ChState.recode, enc_length]
    · simp [ChState.recode]

theorem rc_channelRound (h : RcRec r r') (chs : List Channel) (st : ChState) :
    RcSim (channelRound r chs st) ChState.recode (channelRound r' (chs.map Channel.recode) st.recode) := by
  induction chs generalizing st with
  | nil => exact RcSim.pure' rfl
  | cons c cs ih =>
    exact RcSim.bind' (RcSim.attempt' (rc_channel h c st.prev st.rem))
      (fun x => RcSim.bind' (rc_channelApply st x) (fun st' => ih st'))

theorem rc_channelLoop (h : RcRec r r') (chs : List Channel) (k : Nat) (st : ChState) :
    RcSim (channelLoop r chs k st) ChState.recode (channelLoop r' (chs.map Channel.recode) k st.recode) := by
  induction k generalizing st with
  | zero => exact RcSim.oof' _
  | succ k ih =>
    unfold channelLoop
    refine RcSim.bind' (rc_channelRound h chs st) (fun st' => RcSim.ite' ?_ (RcSim.pure' rfl) (ih st'))
    simp [ChState.recode]

/-- Collected trees and the rest. -/
def skippedRecode (x : List Tree × Bytes) : List Tree × Bytes := (x.1.map Tree.recode, enc x.2)

theorem rc_skipChannels (h : RcRec r r') (chs : List Channel) (prev cur : Bytes) :
    RcSim (skipChannels r chs prev cur) skippedRecode (skipChannels r' (chs.map Channel.recode) (enc prev) (enc cur)) := by
  unfold skipChannels
  refine RcSim.ite' (by simp) (RcSim.pure' rfl) (RcSim.bind' (f := Option.map skippedRecode) (RcSim.attempt' ?_) (fun x => RcSim.pure' ?_))
  · unfold channels
    rw [enc_length]
    refine RcSim.bind' (rc_channelLoop h chs _ ⟨[], prev, cur⟩) (fun st => RcSim.ite' ?_ (RcSim.fail' _) (RcSim.pure' rfl))
    simp [ChState.recode]
  · cases x <;> rfl

/-- A content and the rest. -/
def foundRecode (x : TContent × Bytes) : TContent × Bytes := (x.1.recode, enc x.2)

theorem rc_matchByte (number : UInt8) (pre : List Tree) (rem : Bytes) :
    RcSim (matchByte number pre rem) (Option.map foundRecode) (matchByte (Recoding.code number) (pre.map Tree.recode) (enc rem)) := by
  cases rem with
  | nil => exact RcSim.fail' _
  | cons b rest =>
    unfold matchByte
    refine RcSim.ite' ⟨fun h => congrArg _ h, fun h => Recoding.Faithful.inj h⟩ (RcSim.pure' ?_) (RcSim.pure' rfl)
    simp [foundRecode, TContent.recode, treesRecode_eq]
    rfl

theorem rc_elementValue (h : RcRec r r') (n : UInt8) (ctx : Ctx) (prev cur : Bytes) :
    RcSim (elementValue r n ctx prev cur) (Option.map foundRecode) (elementValue r' (Recoding.code n) ctx.recode (enc prev) (enc cur)) :=
  RcSim.bind' (rc_skipChannels h ctx.channels prev cur) (fun x => rc_matchByte n x.1 x.2)

theorem treeContent_recode (t : Tree) : treeContent t.recode = (treeContent t).map foundRecode := by
  simp [treeContent, foundRecode, TContent.recode, Tree.recode_remaining]

theorem rc_elementContent (h : RcRec r r') (c : Content) (ctx : Ctx) (prev cur : Bytes) :
    RcSim (elementContent r c ctx prev cur) (Option.map foundRecode) (elementContent r' c.recode ctx.recode (enc prev) (enc cur)) := by
  cases c with
  | value n number =>
    exact RcSim.ite' (by rw [enc_isEmpty]) (RcSim.fail' _) (rc_elementValue h number ctx prev cur)
  | external name g =>
    refine RcSim.bind' (f := Tree.recode) ?_ (fun t => RcSim.pure' (treeContent_recode t))
    unfold external
    rw [Grammar.recode_root, Grammar.recode_channels]
    refine RcSim.bind' (RcSim.fresh' (h g.root ⟨none, g.channels, ctx.reverse⟩ prev cur)) (fun t => RcSim.pure' ?_)
    obtain ⟨⟨n, ls, ss⟩, chs⟩ := g
    simp [Tree.recode, Tree.recode_block, Token.recode, Grammar.root, Token.lines, Token.suites, treesRecode, enc_nil]
  | token t => exact RcSim.bind' (h t ctx prev cur) (fun t => RcSim.pure' (treeContent_recode t))
  | everything n ex esc =>
    have := h ex ⟨esc, [], !ctx.reverse⟩ prev cur
    rw [show (⟨esc, [], !ctx.reverse⟩ : Ctx).recode = ⟨optionRecode esc, [], !ctx.reverse⟩ by rw [optionRecode_eq]; rfl] at this
    exact RcSim.bind' this (fun t => RcSim.pure' (treeContent_recode t))
  | recursive n =>
    refine RcSim.bind' (f := Token.recode) ?_ (fun tok => RcSim.bind' (h tok ctx prev cur) (fun t => RcSim.pure' (treeContent_recode t)))
    intro s
    unfold recursiveToken
    rw [Stk.recode_get]
    cases s.get n <;> rfl

theorem rc_element (h : RcRec r r') (c : Content) (ctx : Ctx) (prev cur : Bytes) :
    RcSim (element r c ctx prev cur) foundRecode (element r' c.recode ctx.recode (enc prev) (enc cur)) := by
  unfold element
  refine RcSim.ite' (by rw [enc_isEmpty]) (RcSim.fail' _) (RcSim.bind' (rc_elementContent h c ctx prev cur) (fun x => ?_))
  rcases x with _ | x
  · exact RcSim.fail' _
  · show RcSim (if x.1.isSuccessful then pure x else M.fail) foundRecode
      (if x.1.recode.isSuccessful then pure (foundRecode x) else M.fail)
    rw [TContent.recode_isSuccessful]
    exact RcSim.ite' Iff.rfl (RcSim.pure' rfl) (RcSim.fail' _)

/-- The local variables of the element loop with other bytes. -/
def ElState.recode (st : ElState) : ElState := ⟨st.list.map TContent.recode, enc st.prev, enc st.rem⟩

theorem rc_elementLoop (h : RcRec r r') (c : Content) (max : Option Nat) (ctx : Ctx) (k : Nat) (st : ElState) :
    RcSim (elementLoop r c max ctx k st) ElState.recode (elementLoop r' c.recode max ctx.recode k st.recode) := by
  induction k generalizing st with
  | zero => exact RcSim.oof' _
  | succ k ih =>
    unfold elementLoop
    refine RcSim.ite' (by simp [ElState.recode, enc_isEmpty]) (RcSim.pure' rfl)
      (RcSim.ite' (by simp [ElState.recode]) (RcSim.pure' rfl) ?_)
    refine RcSim.bind' (RcSim.attempt' (rc_element h c ctx st.prev st.rem)) (fun x => ?_)
    rcases x with _ | x
    · exact RcSim.pure' rfl
    · have := ih ⟨st.list ++ [x.1], st.rem, x.2⟩
      rw [show (⟨st.list ++ [x.1], st.rem, x.2⟩ : ElState).recode =
        ⟨st.recode.list ++ [x.1.recode], st.recode.rem, enc x.2⟩ by
        simp [ElState.recode]] at this
      exact this

theorem rc_composeLoop (h : RcRec r r') (ctx : Ctx) (prev : Bytes) (es : List (UInt8 × Nat)) (rem : Bytes) :
    RcSim (composeLoop r ctx prev es rem) id
      (composeLoop r' ctx.recode (enc prev) (es.map (fun e => (Recoding.code e.1, e.2))) (enc rem)) := by
  induction es generalizing rem with
  | nil => exact RcSim.pure' rfl
  | cons e es ih =>
    refine RcSim.bind' (rc_elementValue h e.1 ctx prev rem) (fun x => ?_)
    rcases x with _ | x
    · exact RcSim.fail' _
    · exact ih x.2

/-- The local variables of `line` with other bytes. -/
def LnState.recode (st : LnState) : LnState := ⟨st.list.map TElement.recode, enc st.prev, enc st.rem⟩

theorem rc_lineStep (h : RcRec r r') (ctx : Ctx) (prev : Bytes) (c : Container) (st : LnState) :
    RcSim (lineStep r ctx prev c st) LnState.recode (lineStep r' ctx.recode (enc prev) c.recode st.recode) := by
  cases c with
  | compose cmp => exact RcSim.bind' (rc_composeLoop h ctx prev cmp.list st.rem) (fun _ => RcSim.fail' _)
  | element min max content =>
    refine RcSim.bind' (f := ElState.recode) ?_ (fun x => ?_)
    · rw [show st.recode.rem.length = st.rem.length from enc_length _]
      exact rc_elementLoop h content max ctx _ ⟨[], st.prev, st.rem⟩
    refine RcSim.ite' (by simp [ElState.recode]) (RcSim.fail' _) (RcSim.pure' ?_)
    obtain ⟨xs, p, d⟩ := x
    cases xs <;> simp [LnState.recode, ElState.recode, TElement.recode, Container.recode, tcontentsRecode_eq]

theorem rc_lineLoop (h : RcRec r r') (ctx : Ctx) (prev : Bytes) (cs : List Container) (st : LnState) :
    RcSim (lineLoop r ctx prev cs st) LnState.recode (lineLoop r' ctx.recode (enc prev) (cs.map Container.recode) st.recode) := by
  induction cs generalizing st with
  | nil => exact RcSim.pure' rfl
  | cons c cs ih => exact RcSim.bind' (rc_lineStep h ctx prev c st) (fun st' => ih st')

/-- A line and the rest. -/
def lineRecode (x : TLine × Bytes) : TLine × Bytes := (x.1.recode, enc x.2)

theorem rc_line (h : RcRec r r') (idx : Nat) (g : GLine) (ctx : Ctx) (prev cur : Bytes) :
    RcSim (line r idx g ctx prev cur) lineRecode (line r' idx g.recode ctx.recode (enc prev) (enc cur)) := by
  unfold line
  rw [GLine.recode_containers]
  refine RcSim.bind' (rc_lineLoop h ctx prev g.containers ⟨[], prev, cur⟩) (fun st => RcSim.pure' ?_)
  simp [lineRecode, TLine.recode, LnState.recode, telementsRecode_eq]

theorem byteContents_recode (bs : Bytes) : (byteContents bs).map TContent.recode = byteContents (enc bs) := by
  unfold byteContents
  simp [enc, Function.comp_def, TContent.recode, treesRecode]

theorem rc_escapeApply (st : RvState) (d : Bytes) (x : Option (TLine × Bytes)) :
    RcSim (escapeApply st d x) ElState.recode (escapeApply (ElState.recode st) (enc d) (x.map lineRecode)) := by
  rcases x with _ | x
  · exact RcSim.pure' rfl
  · show RcSim (if x.1.isSuccessful then _ else _) _ (if x.1.recode.isSuccessful then _ else _)
    rw [TLine.recode_isSuccessful]
    refine RcSim.ite' Iff.rfl (RcSim.ite' ?_ (RcSim.pure' ?_) (RcSim.crash' _)) (RcSim.pure' rfl)
    · simp [lineRecode, enc_length]
    · simp [ElState.recode, lineRecode, byteContents_recode, enc_length, enc_take, enc_drop]

theorem rc_escapeStep (h : RcRec r r') (idx : Nat) (g : GLine) (ctx : Ctx) (st : RvState) :
    RcSim (escapeStep r idx g ctx st) ElState.recode (escapeStep r' idx g.recode ctx.recode (ElState.recode st)) := by
  obtain ⟨esc, chs, rev⟩ := ctx
  cases esc with
  | none => exact RcSim.pure' rfl
  | some esc =>
    refine RcSim.bind' (RcSim.attempt' (h esc ⟨none, chs, false⟩ st.prev st.rem)) (fun x => ?_)
    rcases x with _ | t
    · exact RcSim.pure' rfl
    · show RcSim (if t.isSuccessful && !t.remaining.isEmpty then _ else _) _
        (if t.recode.isSuccessful && !t.recode.remaining.isEmpty then _ else _)
      rw [Tree.recode_isSuccessful, Tree.recode_remaining, enc_isEmpty]
      exact RcSim.ite' Iff.rfl (RcSim.bind' (RcSim.attempt' (rc_line h idx g _ st.rem t.remaining))
        (fun x => rc_escapeApply st t.remaining x)) (RcSim.pure' rfl)

theorem rc_reverseLoop (h : RcRec r r') (idx : Nat) (g : GLine) (ctx : Ctx) (k : Nat) (st : RvState) :
    RcSim (reverseLoop r idx g ctx k st) ElState.recode (reverseLoop r' idx g.recode ctx.recode k (ElState.recode st)) := by
  induction k generalizing st with
  | zero => exact RcSim.oof' _
  | succ k ih =>
    unfold reverseLoop
    refine RcSim.ite' (by simp [ElState.recode, enc_isEmpty]) (RcSim.pure' rfl) (RcSim.bind' (rc_escapeStep h idx g ctx st) (fun st' => ?_))
    refine RcSim.bind' (RcSim.attempt' (rc_line h idx g ctx st'.prev st'.rem)) (fun x => ?_)
    rcases x with _ | x
    · obtain ⟨l, p, d⟩ := st'
      cases d with
      | nil => exact RcSim.crash' _
      | cons b rest =>
        have := ih ⟨l ++ [.value [] b], b :: rest, rest⟩
        rw [show (⟨l ++ [.value [] b], b :: rest, rest⟩ : ElState).recode =
          ⟨l.map TContent.recode ++ [.value [] (Recoding.code b)], enc (b :: rest), enc rest⟩ by
            simp [ElState.recode, TContent.recode, treesRecode]] at this
        exact this
    · exact RcSim.pure' rfl

/-- Recorded lines and the rest. -/
def blockRecode (x : List TLine × Bytes) : List TLine × Bytes := (x.1.map TLine.recode, enc x.2)

theorem enc_injective : Function.Injective enc := List.map_injective_iff.mpr Recoding.Faithful.inj

theorem tried_recode (e : Entry) (idx : Nat) (cur : Bytes) :
    (e.recode.lines.lookup idx == some (enc cur)) = (e.lines.lookup idx == some cur) := by
  obtain ⟨t, ls⟩ := e
  unfold Entry.recode
  dsimp only
  induction ls with
  | nil => rfl
  | cons x ls ih =>
    obtain ⟨i, d⟩ := x
    simp only [List.map_cons, List.lookup]
    cases idx == i with
    | false => exact ih
    | true =>
      by_cases hd : d = cur
      · simp [hd]
      · have : enc d ≠ enc cur := fun h => hd (enc_injective h)
        simp [hd, this]

theorem rc_blockLoop (h : RcRec r r') (tok : Token) (ctx : Ctx) (prev cur : Bytes) (idx : Nat) (gs : List GLine)
    (acc : List TLine) :
    RcSim (blockLoop r tok ctx prev cur idx gs acc) blockRecode
      (blockLoop r' tok.recode ctx.recode (enc prev) (enc cur) idx (gs.map GLine.recode) (acc.map TLine.recode)) := by
  induction gs generalizing idx acc with
  | nil => exact RcSim.pure' rfl
  | cons g gs ih =>
    refine RcSim.bind' (f := id) ?_ (fun skip => RcSim.ite' Iff.rfl (ih _ _) ?_)
    · intro s
      unfold alreadyTried
      rw [Token.recode_name, Stk.recode_get]
      cases s.get tok.name with
      | none => rfl
      | some e => exact congrArg (fun b => (Out.ok b, s.recode)) (tried_recode e idx cur)
    refine RcSim.bind' (f := id) ?_ (fun _ => RcSim.ite' Iff.rfl ?_ ?_)
    · intro s
      unfold recordLine
      rw [Token.recode_name, Stk.recode_get]
      simp only [Stk.recode_put]
      cases s.get tok.name <;> rfl
    · unfold reverseLine
      rw [enc_length]
      refine RcSim.bind' (rc_reverseLoop h idx g ctx _ ⟨[], prev, cur⟩) (fun st => RcSim.ite' ?_ (RcSim.fail' _) (RcSim.pure' ?_))
      · simp [ElState.recode]
      · simp [blockRecode, ElState.recode, TLine.recode, telementsRecode, TElement.recode, tcontentsRecode_eq]
    · refine RcSim.bind' (RcSim.attempt' (rc_line h idx g ctx prev cur)) (fun x => ?_)
      rcases x with _ | x
      · exact ih _ _
      · show RcSim (if x.1.isSuccessful then _ else _) _ (if x.1.recode.isSuccessful then _ else _)
        rw [TLine.recode_isSuccessful]
        refine RcSim.ite' Iff.rfl (RcSim.pure' ?_) ?_
        · simp [blockRecode, lineRecode]
        · have := ih (idx + 1) (acc ++ [x.1])
          rw [List.map_append] at this
          exact this

theorem rc_tokenBody (h : RcRec r r') : RcRec (tokenBody r) (tokenBody r') := by
  intro t ctx prev cur
  unfold tokenBody
  rw [Token.recode_name, Token.recode_lines]
  refine RcSim.bind' (f := id) ?_ (fun _ => ?_)
  · intro s
    unfold enter
    rw [Token.recode_name, Stk.recode_get]
    cases s.get t.name with
    | some e => rfl
    | none => exact congrArg (Prod.mk _) (Stk.recode_put s t.name ⟨t, []⟩).symm
  refine RcSim.bind' (RcSim.thenDelete' _ (rc_blockLoop h t ctx prev cur 0 t.lines [])) (fun x => ?_)
  refine RcSim.ite' (by simp [blockRecode]) (RcSim.fail' _) ?_
  refine RcSim.bind' (rc_skipChannels h ctx.channels prev x.2) (fun s => RcSim.pure' ?_)
  simp [Tree.recode, skippedRecode, blockRecode, mkBlock_recode, treesRecode_eq]

theorem rc_token (n : Nat) : RcRec (token n) (token n) := by
  induction n with
  | zero => intro t ctx prev cur; exact RcSim.oof' _
  | succ n ih => exact rc_tokenBody ih

/-- The parser does the same with other bytes. -/
theorem execute_recode (n : Nat) (g : Grammar) (input : Bytes) :
    execute n g.recode (enc input) = (execute n g input).map Tree.recode := by
  unfold execute
  rw [Grammar.recode_root, Grammar.recode_channels]
  have := rc_token n g.root ⟨none, g.channels, false⟩ [] input []
  exact congrArg Prod.fst this

omit [Recoding.Faithful] in
theorem composeCompose_recode (c : Compose) : composeCompose c.recode = enc (composeCompose c) := by
  unfold composeCompose Compose.recode enc
  rw [List.flatMap_map, List.map_flatMap]
  simp

omit [Recoding.Faithful] in
theorem composeContainers_recode (cs : List Container) :
    composeContainers (cs.map Container.recode) = enc <$> composeContainers cs := by
  induction cs with
  | nil => rfl
  | cons c cs ih =>
    cases c with
    | element min max c => rfl
    | compose c =>
      simp only [List.map_cons, Container.recode, composeContainers, ih]
      cases composeContainers cs with
      | ok b =>
        show Res.ok _ = Res.ok _
        rw [composeCompose_recode, enc_append]
      | err => rfl
      | panic => rfl

omit [Recoding.Faithful] in
/-- Composing a token does the same with other bytes. -/
theorem composeToken_recode (t : Token) : composeToken t.recode = enc <$> composeToken t := by
  unfold composeToken
  rw [Token.recode_lines]
  rcases t.lines with _ | ⟨g, _ | ⟨g', gs⟩⟩
  · rfl
  · show composeContainers g.recode.containers = _
    rw [GLine.recode_containers]
    exact composeContainers_recode _
  · rfl

end Rodkina.Ast
