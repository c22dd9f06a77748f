import Verif.AstLemmas

/-!
# The parser never looks at suites

Grammars and trees with all suites left out; every function of the parser does the same on the one and on the other.
-/

namespace Rodkina.Ast

open M

/-! ## Leaving the suites out -/

mutual
/-- A token without its suites, nor those of what is nested in it. -/
def Token.bare : Token → Token
  | .mk n ls _ => .mk n (linesBare ls) []
/-- All lines. -/
def linesBare : List GLine → List GLine
  | [] => []
  | g :: gs => GLine.bare g :: linesBare gs
/-- One line. -/
def GLine.bare : GLine → GLine
  | .mk cs => .mk (containersBare cs)
/-- All containers. -/
def containersBare : List Container → List Container
  | [] => []
  | c :: cs => Container.bare c :: containersBare cs
/-- One container. -/
def Container.bare : Container → Container
  | .element min max c => .element min max (Content.bare c)
  | .compose c => .compose c
/-- One content. -/
def Content.bare : Content → Content
  | .value n b => .value n b
  | .external n g => .external n (Grammar.bare g)
  | .token t => .token (Token.bare t)
  | .everything n ex esc => .everything n (Token.bare ex) (optionBare esc)
  | .recursive n => .recursive n
/-- An escape token or a condition. -/
def optionBare : Option Token → Option Token
  | none => none
  | some t => some (Token.bare t)
/-- A grammar. -/
def Grammar.bare : Grammar → Grammar
  | .mk root chs => .mk (Token.bare root) (channelsBare chs)
/-- All channels. -/
def channelsBare : List Channel → List Channel
  | [] => []
  | c :: cs => Channel.bare c :: channelsBare cs
/-- One channel. -/
def Channel.bare : Channel → Channel
  | .mk t p n => .mk (Token.bare t) (optionBare p) (optionBare n)
end

mutual
/-- A tree whose grammar parts have no suites. -/
def Tree.bare : Tree → Tree
  | .mk g b suf rem => .mk g.bare (Block.bare b) (treesBare suf) rem
/-- All trees. -/
def treesBare : List Tree → List Tree
  | [] => []
  | t :: ts => Tree.bare t :: treesBare ts
/-- A block. -/
def Block.bare : Block → Block
  | .mk ls none => .mk (tlinesBare ls) none
  | .mk ls (some l) => .mk (tlinesBare ls) (some (TLine.bare l))
/-- All lines of a block. -/
def tlinesBare : List TLine → List TLine
  | [] => []
  | l :: ls => TLine.bare l :: tlinesBare ls
/-- A line. -/
def TLine.bare : TLine → TLine
  | .mk i g rev es => .mk i g.bare rev (telementsBare es)
/-- All elements. -/
def telementsBare : List TElement → List TElement
  | [] => []
  | e :: es => TElement.bare e :: telementsBare es
/-- An element. -/
def TElement.bare : TElement → TElement
  | .mk g xs => .mk (g.map Container.bare) (tcontentsBare xs)
/-- All contents. -/
def tcontentsBare : List TContent → List TContent
  | [] => []
  | x :: xs => TContent.bare x :: tcontentsBare xs
/-- A content. -/
def TContent.bare : TContent → TContent
  | .value p b => .value (treesBare p) b
  | .tree t => .tree (Tree.bare t)
end

/-- The value of an outcome changed. -/
def Out.map {α β : Type} (f : α → β) : Out α → Out β
  | .ok a => .ok (f a)
  | .err => .err
  | .panic => .panic
  | .oof => .oof

/-! ## Lists -/

theorem linesBare_eq (ls : List GLine) : linesBare ls = ls.map GLine.bare := by
  induction ls with
  | nil => rfl
  | cons l ls ih => rw [linesBare, ih]; rfl

theorem containersBare_eq (cs : List Container) : containersBare cs = cs.map Container.bare := by
  induction cs with
  | nil => rfl
  | cons c cs ih => rw [containersBare, ih]; rfl

theorem channelsBare_eq (cs : List Channel) : channelsBare cs = cs.map Channel.bare := by
  induction cs with
  | nil => rfl
  | cons c cs ih => rw [channelsBare, ih]; rfl

theorem treesBare_eq (ts : List Tree) : treesBare ts = ts.map Tree.bare := by
  induction ts with
  | nil => rfl
  | cons t ts ih => rw [treesBare, ih]; rfl

theorem tlinesBare_eq (ls : List TLine) : tlinesBare ls = ls.map TLine.bare := by
  induction ls with
  | nil => rfl
  | cons l ls ih => rw [tlinesBare, ih]; rfl

theorem telementsBare_eq (es : List TElement) : telementsBare es = es.map TElement.bare := by
  induction es with
  | nil => rfl
  | cons e es ih => rw [telementsBare, ih]; rfl

theorem tcontentsBare_eq (xs : List TContent) : tcontentsBare xs = xs.map TContent.bare := by
  induction xs with
  | nil => rfl
  | cons x xs ih => rw [tcontentsBare, ih]; rfl

theorem optionBare_eq (o : Option Token) : optionBare o = o.map Token.bare := by
  cases o <;> rfl

/-! ## What stays -/

theorem Token.bare_name (t : Token) : t.bare.name = t.name := by
  obtain ⟨n, ls, ss⟩ := t; rfl

theorem Token.bare_lines (t : Token) : t.bare.lines = t.lines.map GLine.bare := by
  obtain ⟨n, ls, ss⟩ := t; exact linesBare_eq ls

theorem GLine.bare_containers (g : GLine) : g.bare.containers = g.containers.map Container.bare := by
  obtain ⟨cs⟩ := g; exact containersBare_eq cs

theorem Content.bare_name (c : Content) : c.bare.name = c.name := by
  cases c <;> simp [Content.bare, Content.name, Token.bare_name]

theorem Container.bare_name (c : Container) : c.bare.name = c.name := by
  cases c <;> simp [Container.bare, Container.name, Content.bare_name]

theorem Grammar.bare_root (g : Grammar) : g.bare.root = g.root.bare := by
  obtain ⟨r, cs⟩ := g; rfl

theorem Grammar.bare_channels (g : Grammar) : g.bare.channels = g.channels.map Channel.bare := by
  obtain ⟨r, cs⟩ := g; exact channelsBare_eq cs

theorem Channel.bare_token (c : Channel) : c.bare.token = c.token.bare := by
  obtain ⟨t, p, n⟩ := c; rfl

theorem Channel.bare_previous (c : Channel) : c.bare.previous = c.previous.map Token.bare := by
  obtain ⟨t, p, n⟩ := c; exact optionBare_eq p

theorem Channel.bare_next (c : Channel) : c.bare.next = c.next.map Token.bare := by
  obtain ⟨t, p, n⟩ := c; exact optionBare_eq n

theorem Tree.bare_remaining (t : Tree) : t.bare.remaining = t.remaining := by
  obtain ⟨g, b, s, r⟩ := t; rfl

theorem Tree.bare_block (t : Tree) : t.bare.block = t.block.bare := by
  obtain ⟨g, b, s, r⟩ := t; rfl

theorem Block.bare_eq (ls : List TLine) (s : Option TLine) :
    (Block.mk ls s).bare = .mk (ls.map TLine.bare) (s.map TLine.bare) := by
  cases s <;> simp [Block.bare, tlinesBare_eq]

theorem Tree.bare_isSuccessful (t : Tree) : t.bare.isSuccessful = t.isSuccessful := by
  obtain ⟨g, ⟨ls, s⟩, suf, r⟩ := t
  simp only [Tree.isSuccessful, Tree.bare, Tree.block, Block.bare_eq, Block.successful, Option.isSome_map]

mutual
theorem Tree.bare_bytes (ch : Bool) : ∀ t : Tree, t.bare.bytes ch = t.bytes ch
  | .mk g (.mk ls none) suf rem => by simp [Tree.bare, Block.bare, Tree.bytes, Block.bytesWith]
  | .mk g (.mk ls (some l)) suf rem => by
    simp [Tree.bare, Block.bare, Tree.bytes, Block.bytesWith, TLine.bare_bytes ch l, treesBare_bytes ch suf]
theorem treesBare_bytes (ch : Bool) : ∀ ts : List Tree, treesBytes ch (treesBare ts) = treesBytes ch ts
  | [] => by simp [treesBare]
  | t :: ts => by simp [treesBare, treesBytes, Tree.bare_bytes ch t, treesBare_bytes ch ts]
theorem TLine.bare_bytes (ch : Bool) : ∀ l : TLine, l.bare.bytes ch = l.bytes ch
  | .mk i g rev es => by simp [TLine.bare, TLine.bytes, telementsBare_bytes ch es]
theorem telementsBare_bytes (ch : Bool) : ∀ es : List TElement, elementsBytes ch (telementsBare es) = elementsBytes ch es
  | [] => by simp [telementsBare]
  | e :: es => by simp [telementsBare, elementsBytes, TElement.bare_bytes ch e, telementsBare_bytes ch es]
theorem TElement.bare_bytes (ch : Bool) : ∀ e : TElement, e.bare.bytes ch = e.bytes ch
  | .mk g xs => by simp [TElement.bare, TElement.bytes, tcontentsBare_bytes ch xs]
theorem tcontentsBare_bytes (ch : Bool) : ∀ xs : List TContent, contentsBytes ch (tcontentsBare xs) = contentsBytes ch xs
  | [] => by simp [tcontentsBare]
  | x :: xs => by simp [tcontentsBare, contentsBytes, TContent.bare_bytes ch x, tcontentsBare_bytes ch xs]
theorem TContent.bare_bytes (ch : Bool) : ∀ x : TContent, x.bare.bytes ch = x.bytes ch
  | .value p b => by simp [TContent.bare, TContent.bytes, treesBare_bytes ch p]
  | .tree t => by simp [TContent.bare, TContent.bytes, Tree.bare_bytes ch t]
end

theorem TElement.bare_isSuccessful (e : TElement) : e.bare.isSuccessful = e.isSuccessful := by
  obtain ⟨g, xs⟩ := e
  rcases g with _ | ⟨min, max, c⟩ | c <;>
    simp [TElement.bare, TElement.isSuccessful, Container.bare, tcontentsBare_eq]

theorem TElement.bare_key (e : TElement) : e.bare.key = e.key := by
  obtain ⟨g, xs⟩ := e
  rcases g with _ | c <;> simp [TElement.bare, TElement.key, TElement.grammar, Container.bare_name]

theorem TElement.bare_amount (e : TElement) : e.bare.amount = e.amount := by
  obtain ⟨g, xs⟩ := e
  simp [TElement.bare, TElement.amount, TElement.contents, tcontentsBare_eq]

theorem fetchElement_bare (es : List TElement) (name : String) :
    fetchElement (es.map TElement.bare) name = (fetchElement es name).map TElement.bare := by
  unfold fetchElement
  rw [← List.map_reverse, List.find?_map]
  congr 1
  congr 1
  funext e
  simp [Function.comp, TElement.bare_key]

theorem containerSatisfied_bare (es : List TElement) (c : Container) :
    containerSatisfied (es.map TElement.bare) c.bare = containerSatisfied es c := by
  cases c with
  | element min max c =>
    simp only [Container.bare, containerSatisfied, Content.bare_name, fetchElement_bare, Option.any_map]
    congr 2
    funext e
    simp [Function.comp, TElement.bare_amount]
  | compose c =>
    simp only [Container.bare, containerSatisfied, fetchElement_bare, Option.any_map]
    congr 1
    funext e
    simp [Function.comp, TElement.bare_amount]

theorem TLine.bare_isSuccessful (l : TLine) : l.bare.isSuccessful = l.isSuccessful := by
  obtain ⟨i, g, rev, es⟩ := l
  simp only [TLine.bare, TLine.isSuccessful, telementsBare_eq, GLine.bare_containers, List.all_map, List.isEmpty_map]
  have h1 : (TElement.isSuccessful ∘ TElement.bare) = TElement.isSuccessful := by
    funext e; exact e.bare_isSuccessful
  have h2 : (containerSatisfied (es.map TElement.bare) ∘ Container.bare) = containerSatisfied es := by
    funext c; exact containerSatisfied_bare es c
  rw [h1, h2]

theorem mkBlock_bare (ls : List TLine) : mkBlock (ls.map TLine.bare) = (mkBlock ls).bare := by
  unfold mkBlock
  rw [Block.bare_eq, List.find?_map]
  congr 2
  congr 1
  funext l
  exact l.bare_isSuccessful

theorem TContent.bare_isSuccessful (x : TContent) : x.bare.isSuccessful = x.isSuccessful := by
  cases x with
  | value p b => rfl
  | tree t => exact t.bare_isSuccessful

/-! ## Simulation -/

/-- The map with bare tokens. -/
def Stk.bare (s : Stk) : Stk := s.map (fun e => (e.1, ⟨e.2.token.bare, e.2.lines⟩))

/-- The parameters with bare tokens. -/
def Ctx.bare (c : Ctx) : Ctx := ⟨c.escape.map Token.bare, c.channels.map Channel.bare, c.reverse⟩

theorem Stk.bare_get (s : Stk) (k : String) :
    s.bare.get k = (s.get k).map (fun e => ⟨e.token.bare, e.lines⟩) := by
  unfold Stk.bare Stk.get
  induction s with
  | nil => rfl
  | cons e s ih =>
    obtain ⟨a, e⟩ := e
    simp only [List.map_cons, List.lookup]
    cases k == a with
    | true => rfl
    | false => exact ih

theorem Stk.bare_del (s : Stk) (k : String) : Stk.bare (s.del k) = s.bare.del k := by
  unfold Stk.bare Stk.del
  rw [List.filter_map]
  rfl

theorem Stk.bare_put (s : Stk) (k : String) (e : Entry) :
    Stk.bare (s.put k e) = s.bare.put k ⟨e.token.bare, e.lines⟩ := by
  show (k, (⟨e.token.bare, e.lines⟩ : Entry)) :: Stk.bare (s.del k) = _
  rw [Stk.bare_del]
  rfl

/-- The one computation on the bare map does what the other does, values changed by `f`. -/
def Sim {α β : Type} (m : M α) (f : α → β) (m' : M β) : Prop :=
  ∀ s : Stk, m' s.bare = ((m s).1.map f, (m s).2.bare)

namespace Sim

variable {α β γ δ : Type}

theorem pure' {a : α} {f : α → β} {b : β} (h : b = f a) : Sim (pure a : M α) f (pure b) := fun s => by
  subst h; rfl

theorem fail' (f : α → β) : Sim (M.fail : M α) f M.fail := fun _ => rfl
theorem crash' (f : α → β) : Sim (M.crash : M α) f M.crash := fun _ => rfl
theorem oof' (f : α → β) : Sim (M.oof : M α) f M.oof := fun _ => rfl

theorem bind' {m : M α} {f : α → β} {m' : M β} {k : α → M γ} {g : γ → δ} {k' : β → M δ} (hm : Sim m f m')
    (hk : ∀ a, Sim (k a) g (k' (f a))) : Sim (m >>= k) g (m' >>= k') := by
  intro s
  rw [bind_apply, bind_apply, hm s]
  generalize m s = r
  obtain ⟨o, s'⟩ := r
  cases o with
  | ok a => exact hk a s'
  | err => rfl
  | panic => rfl
  | oof => rfl

theorem attempt' {m : M α} {f : α → β} {m' : M β} (hm : Sim m f m') :
    Sim (M.attempt m) (Option.map f) (M.attempt m') := by
  intro s
  unfold M.attempt
  rw [hm s]
  generalize m s = r
  obtain ⟨o, s'⟩ := r
  cases o <;> rfl

theorem fresh' {m : M α} {f : α → β} {m' : M β} (hm : Sim m f m') : Sim (M.fresh m) f (M.fresh m') := by
  intro s
  unfold M.fresh
  have := hm []
  rw [show Stk.bare [] = [] from rfl] at this
  rw [this]

theorem thenDelete' {m : M α} {f : α → β} {m' : M β} (name : String) (hm : Sim m f m') :
    Sim (M.thenDelete name m) f (M.thenDelete name m') := by
  intro s
  unfold M.thenDelete
  rw [hm s, Stk.bare_del]

theorem ite' {c c' : Prop} [Decidable c] [Decidable c'] (hc : c ↔ c') {a b : M α} {f : α → β} {a' b' : M β}
    (h1 : Sim a f a') (h2 : Sim b f b') : Sim (if c then a else b) f (if c' then a' else b') := by
  by_cases h : c
  · rw [if_pos h, if_pos (hc.mp h)]; exact h1
  · rw [if_neg h, if_neg (fun x => h (hc.mpr x))]; exact h2

end Sim

/-- The one call does what the other does. -/
def RecSim (r r' : Rec) : Prop := ∀ t ctx prev cur, Sim (r t ctx prev cur) Tree.bare (r' t.bare ctx.bare prev cur)

variable {r r' : Rec}

theorem sim_condMatch (h : RecSim r r') (o : Option Token) (d : Bytes) :
    Sim (condMatch r o d) id (condMatch r' (o.map Token.bare) d) := by
  unfold condMatch
  cases o with
  | none => exact Sim.pure' rfl
  | some t => exact Sim.bind' (Sim.fresh' (h t Ctx.plain [] d)) (fun _ => Sim.pure' rfl)

theorem sim_channel (h : RecSim r r') (c : Channel) (prev cur : Bytes) :
    Sim (channel r c prev cur) (Option.map Tree.bare) (channel r' c.bare prev cur) := by
  unfold channel
  rw [Channel.bare_token]
  refine Sim.bind' (Sim.fresh' (h c.token Ctx.plain prev cur)) (fun t => ?_)
  refine Sim.bind' (f := id) ?_ (fun b => Sim.pure' ?_)
  · unfold channelCondition
    rw [Channel.bare_previous, Channel.bare_next, Tree.bare_remaining]
    exact Sim.bind' (sim_condMatch h _ _) (fun _ => Sim.bind' (sim_condMatch h _ _) (fun _ => Sim.pure' rfl))
  · cases b <;> rfl

/-- The local variables of `channels` with bare trees. -/
def ChState.bare (st : ChState) : ChState := ⟨st.list.map Tree.bare, st.prev, st.rem⟩

theorem sim_sliceFrom (l : Bytes) (k : Nat) : Sim (sliceFrom l k) id (sliceFrom l k) := by
  unfold sliceFrom
  exact Sim.ite' Iff.rfl (Sim.pure' rfl) (Sim.crash' _)

theorem sim_channelApply (st : ChState) (x : Option (Option Tree)) :
    Sim (channelApply st x) ChState.bare (channelApply st.bare (x.map (Option.map Tree.bare))) := by
  rcases x with _ | _ | t
  · exact Sim.pure' rfl
  · exact Sim.pure' rfl
  · show Sim (sliceFrom st.rem (t.bytes true).length >>= _) _ (sliceFrom st.rem (t.bare.bytes true).length >>= _)
    rw [Tree.bare_bytes]
    refine Sim.bind' (sim_sliceFrom _ _) (fun rem => Sim.ite' Iff.rfl (Sim.pure' rfl) (Sim.pure' ?_))
    simp [ChState.bare]

theorem sim_channelRound (h : RecSim r r') (chs : List Channel) (st : ChState) :
    Sim (channelRound r chs st) ChState.bare (channelRound r' (chs.map Channel.bare) st.bare) := by
  induction chs generalizing st with
  | nil => exact Sim.pure' rfl
  | cons c cs ih =>
    exact Sim.bind' (Sim.attempt' (sim_channel h c st.prev st.rem))
      (fun x => Sim.bind' (sim_channelApply st x) (fun st' => ih st'))

theorem sim_channelLoop (h : RecSim r r') (chs : List Channel) (k : Nat) (st : ChState) :
    Sim (channelLoop r chs k st) ChState.bare (channelLoop r' (chs.map Channel.bare) k st.bare) := by
  induction k generalizing st with
  | zero => exact Sim.oof' _
  | succ k ih =>
    unfold channelLoop
    refine Sim.bind' (sim_channelRound h chs st) (fun st' => Sim.ite' ?_ (Sim.pure' rfl) (ih st'))
    simp [ChState.bare]

/-- Collected trees and the rest. -/
def skippedBare (x : List Tree × Bytes) : List Tree × Bytes := (x.1.map Tree.bare, x.2)

theorem sim_skipChannels (h : RecSim r r') (chs : List Channel) (prev cur : Bytes) :
    Sim (skipChannels r chs prev cur) skippedBare (skipChannels r' (chs.map Channel.bare) prev cur) := by
  unfold skipChannels
  refine Sim.ite' (by simp) (Sim.pure' rfl) (Sim.bind' (f := Option.map skippedBare) (Sim.attempt' ?_) (fun x => Sim.pure' ?_))
  · unfold channels
    refine Sim.bind' (sim_channelLoop h chs _ ⟨[], prev, cur⟩) (fun st => Sim.ite' ?_ (Sim.fail' _) (Sim.pure' rfl))
    simp [ChState.bare]
  · cases x <;> rfl

/-- A content and the rest. -/
def foundBare (x : TContent × Bytes) : TContent × Bytes := (x.1.bare, x.2)

theorem sim_matchByte (number : UInt8) (pre : List Tree) (rem : Bytes) :
    Sim (matchByte number pre rem) (Option.map foundBare) (matchByte number (pre.map Tree.bare) rem) := by
  cases rem with
  | nil => exact Sim.fail' _
  | cons b rest =>
    unfold matchByte
    refine Sim.ite' Iff.rfl (Sim.pure' ?_) (Sim.pure' rfl)
    simp [foundBare, TContent.bare, treesBare_eq]

theorem sim_elementValue (h : RecSim r r') (n : UInt8) (ctx : Ctx) (prev cur : Bytes) :
    Sim (elementValue r n ctx prev cur) (Option.map foundBare) (elementValue r' n ctx.bare prev cur) :=
  Sim.bind' (sim_skipChannels h ctx.channels prev cur) (fun x => sim_matchByte n x.1 x.2)

theorem treeContent_bare (t : Tree) : treeContent t.bare = (treeContent t).map foundBare := by
  simp [treeContent, foundBare, TContent.bare, Tree.bare_remaining]

theorem sim_elementContent (h : RecSim r r') (c : Content) (ctx : Ctx) (prev cur : Bytes) :
    Sim (elementContent r c ctx prev cur) (Option.map foundBare) (elementContent r' c.bare ctx.bare prev cur) := by
  cases c with
  | value n number =>
    exact Sim.ite' Iff.rfl (Sim.fail' _) (sim_elementValue h number ctx prev cur)
  | external name g =>
    refine Sim.bind' (f := Tree.bare) ?_ (fun t => Sim.pure' (treeContent_bare t))
    unfold external
    rw [Grammar.bare_root, Grammar.bare_channels]
    refine Sim.bind' (Sim.fresh' (h g.root ⟨none, g.channels, ctx.reverse⟩ prev cur)) (fun t => Sim.pure' ?_)
    obtain ⟨⟨n, ls, ss⟩, chs⟩ := g
    simp [Tree.bare, Tree.bare_block, Token.bare, Grammar.root, Token.lines, Token.suites, treesBare]
  | token t => exact Sim.bind' (h t ctx prev cur) (fun t => Sim.pure' (treeContent_bare t))
  | everything n ex esc =>
    have := h ex ⟨esc, [], !ctx.reverse⟩ prev cur
    rw [show (⟨esc, [], !ctx.reverse⟩ : Ctx).bare = ⟨optionBare esc, [], !ctx.reverse⟩ by rw [optionBare_eq]; rfl] at this
    exact Sim.bind' this (fun t => Sim.pure' (treeContent_bare t))
  | recursive n =>
    refine Sim.bind' (f := Token.bare) ?_ (fun tok => Sim.bind' (h tok ctx prev cur) (fun t => Sim.pure' (treeContent_bare t)))
    intro s
    unfold recursiveToken
    rw [Stk.bare_get]
    cases s.get n <;> rfl

theorem sim_element (h : RecSim r r') (c : Content) (ctx : Ctx) (prev cur : Bytes) :
    Sim (element r c ctx prev cur) foundBare (element r' c.bare ctx.bare prev cur) := by
  unfold element
  refine Sim.ite' Iff.rfl (Sim.fail' _) (Sim.bind' (sim_elementContent h c ctx prev cur) (fun x => ?_))
  rcases x with _ | x
  · exact Sim.fail' _
  · show Sim (if x.1.isSuccessful then pure x else M.fail) foundBare
      (if x.1.bare.isSuccessful then pure (foundBare x) else M.fail)
    rw [TContent.bare_isSuccessful]
    exact Sim.ite' Iff.rfl (Sim.pure' rfl) (Sim.fail' _)

/-- The local variables of the element loop with bare contents. -/
def ElState.bare (st : ElState) : ElState := ⟨st.list.map TContent.bare, st.prev, st.rem⟩

theorem sim_elementLoop (h : RecSim r r') (c : Content) (max : Option Nat) (ctx : Ctx) (k : Nat) (st : ElState) :
    Sim (elementLoop r c max ctx k st) ElState.bare (elementLoop r' c.bare max ctx.bare k st.bare) := by
  induction k generalizing st with
  | zero => exact Sim.oof' _
  | succ k ih =>
    unfold elementLoop
    refine Sim.ite' Iff.rfl (Sim.pure' rfl) (Sim.ite' (by simp [ElState.bare]) (Sim.pure' rfl) ?_)
    refine Sim.bind' (Sim.attempt' (sim_element h c ctx st.prev st.rem)) (fun x => ?_)
    rcases x with _ | x
    · exact Sim.pure' rfl
    · have := ih ⟨st.list ++ [x.1], st.rem, x.2⟩
      rw [show (⟨st.list ++ [x.1], st.rem, x.2⟩ : ElState).bare = ⟨st.bare.list ++ [x.1.bare], st.bare.rem, x.2⟩ by
        simp [ElState.bare]] at this
      exact this

theorem sim_composeLoop (h : RecSim r r') (ctx : Ctx) (prev : Bytes) (es : List (UInt8 × Nat)) (rem : Bytes) :
    Sim (composeLoop r ctx prev es rem) id (composeLoop r' ctx.bare prev es rem) := by
  induction es generalizing rem with
  | nil => exact Sim.pure' rfl
  | cons e es ih =>
    refine Sim.bind' (sim_elementValue h e.1 ctx prev rem) (fun x => ?_)
    rcases x with _ | x
    · exact Sim.fail' _
    · exact ih x.2

/-- The local variables of `line` with bare elements. -/
def LnState.bare (st : LnState) : LnState := ⟨st.list.map TElement.bare, st.prev, st.rem⟩

theorem sim_lineStep (h : RecSim r r') (ctx : Ctx) (prev : Bytes) (c : Container) (st : LnState) :
    Sim (lineStep r ctx prev c st) LnState.bare (lineStep r' ctx.bare prev c.bare st.bare) := by
  cases c with
  | compose cmp => exact Sim.bind' (sim_composeLoop h ctx prev cmp.list st.rem) (fun _ => Sim.fail' _)
  | element min max content =>
    refine Sim.bind' (sim_elementLoop h content max ctx _ ⟨[], st.prev, st.rem⟩) (fun x => ?_)
    refine Sim.ite' (by simp [ElState.bare]) (Sim.fail' _) (Sim.pure' ?_)
    obtain ⟨xs, p, d⟩ := x
    cases xs <;> simp [LnState.bare, ElState.bare, TElement.bare, Container.bare, tcontentsBare_eq]

theorem sim_lineLoop (h : RecSim r r') (ctx : Ctx) (prev : Bytes) (cs : List Container) (st : LnState) :
    Sim (lineLoop r ctx prev cs st) LnState.bare (lineLoop r' ctx.bare prev (cs.map Container.bare) st.bare) := by
  induction cs generalizing st with
  | nil => exact Sim.pure' rfl
  | cons c cs ih => exact Sim.bind' (sim_lineStep h ctx prev c st) (fun st' => ih st')

/-- A line and the rest. -/
def lineBare (x : TLine × Bytes) : TLine × Bytes := (x.1.bare, x.2)

theorem sim_line (h : RecSim r r') (idx : Nat) (g : GLine) (ctx : Ctx) (prev cur : Bytes) :
    Sim (line r idx g ctx prev cur) lineBare (line r' idx g.bare ctx.bare prev cur) := by
  unfold line
  rw [GLine.bare_containers]
  refine Sim.bind' (sim_lineLoop h ctx prev g.containers ⟨[], prev, cur⟩) (fun st => Sim.pure' ?_)
  simp [lineBare, TLine.bare, LnState.bare, telementsBare_eq]

theorem byteContents_bare (bs : Bytes) : (byteContents bs).map TContent.bare = byteContents bs := by
  unfold byteContents
  rw [List.map_map]
  rfl

theorem sim_escapeApply (st : RvState) (d : Bytes) (x : Option (TLine × Bytes)) :
    Sim (escapeApply st d x) ElState.bare (escapeApply (ElState.bare st) d (x.map lineBare)) := by
  rcases x with _ | x
  · exact Sim.pure' rfl
  · show Sim (if x.1.isSuccessful then _ else _) _ (if x.1.bare.isSuccessful then _ else _)
    rw [TLine.bare_isSuccessful]
    refine Sim.ite' Iff.rfl (Sim.ite' Iff.rfl (Sim.pure' ?_) (Sim.crash' _)) (Sim.pure' rfl)
    simp [ElState.bare, lineBare, byteContents_bare]

theorem sim_escapeStep (h : RecSim r r') (idx : Nat) (g : GLine) (ctx : Ctx) (st : RvState) :
    Sim (escapeStep r idx g ctx st) ElState.bare (escapeStep r' idx g.bare ctx.bare (ElState.bare st)) := by
  obtain ⟨esc, chs, rev⟩ := ctx
  cases esc with
  | none => exact Sim.pure' rfl
  | some esc =>
    refine Sim.bind' (Sim.attempt' (h esc ⟨none, chs, false⟩ st.prev st.rem)) (fun x => ?_)
    rcases x with _ | t
    · exact Sim.pure' rfl
    · show Sim (if t.isSuccessful && !t.remaining.isEmpty then _ else _) _
        (if t.bare.isSuccessful && !t.bare.remaining.isEmpty then _ else _)
      rw [Tree.bare_isSuccessful, Tree.bare_remaining]
      exact Sim.ite' Iff.rfl (Sim.bind' (Sim.attempt' (sim_line h idx g _ st.rem t.remaining))
        (fun x => sim_escapeApply st t.remaining x)) (Sim.pure' rfl)

theorem sim_reverseLoop (h : RecSim r r') (idx : Nat) (g : GLine) (ctx : Ctx) (k : Nat) (st : RvState) :
    Sim (reverseLoop r idx g ctx k st) ElState.bare (reverseLoop r' idx g.bare ctx.bare k (ElState.bare st)) := by
  induction k generalizing st with
  | zero => exact Sim.oof' _
  | succ k ih =>
    unfold reverseLoop
    refine Sim.ite' Iff.rfl (Sim.pure' rfl) (Sim.bind' (sim_escapeStep h idx g ctx st) (fun st' => ?_))
    refine Sim.bind' (Sim.attempt' (sim_line h idx g ctx st'.prev st'.rem)) (fun x => ?_)
    rcases x with _ | x
    · obtain ⟨l, p, d⟩ := st'
      cases d with
      | nil => exact Sim.crash' _
      | cons b rest =>
        have := ih ⟨l ++ [.value [] b], b :: rest, rest⟩
        rw [show (⟨l ++ [.value [] b], b :: rest, rest⟩ : ElState).bare =
          ⟨l.map TContent.bare ++ [.value [] b], b :: rest, rest⟩ by simp [ElState.bare, TContent.bare, treesBare]] at this
        exact this
    · exact Sim.pure' rfl

/-- Recorded lines and the rest. -/
def blockBare (x : List TLine × Bytes) : List TLine × Bytes := (x.1.map TLine.bare, x.2)

theorem sim_blockLoop (h : RecSim r r') (tok : Token) (ctx : Ctx) (prev cur : Bytes) (idx : Nat) (gs : List GLine)
    (acc : List TLine) :
    Sim (blockLoop r tok ctx prev cur idx gs acc) blockBare
      (blockLoop r' tok.bare ctx.bare prev cur idx (gs.map GLine.bare) (acc.map TLine.bare)) := by
  induction gs generalizing idx acc with
  | nil => exact Sim.pure' rfl
  | cons g gs ih =>
    refine Sim.bind' (f := id) ?_ (fun skip => Sim.ite' Iff.rfl (ih _ _) ?_)
    · intro s
      unfold alreadyTried
      rw [Token.bare_name, Stk.bare_get]
      cases s.get tok.name <;> rfl
    refine Sim.bind' (f := id) ?_ (fun _ => Sim.ite' Iff.rfl ?_ ?_)
    · intro s
      unfold recordLine
      rw [Token.bare_name, Stk.bare_get]
      simp only [Stk.bare_put]
      cases s.get tok.name <;> rfl
    · unfold reverseLine
      refine Sim.bind' (sim_reverseLoop h idx g ctx _ ⟨[], prev, cur⟩) (fun st => Sim.ite' ?_ (Sim.fail' _) (Sim.pure' ?_))
      · simp [ElState.bare]
      · simp [blockBare, ElState.bare, TLine.bare, telementsBare, TElement.bare, tcontentsBare_eq]
    · refine Sim.bind' (Sim.attempt' (sim_line h idx g ctx prev cur)) (fun x => ?_)
      rcases x with _ | x
      · exact ih _ _
      · show Sim (if x.1.isSuccessful then _ else _) _ (if x.1.bare.isSuccessful then _ else _)
        rw [TLine.bare_isSuccessful]
        refine Sim.ite' Iff.rfl (Sim.pure' ?_) ?_
        · simp [blockBare, lineBare]
        · have := ih (idx + 1) (acc ++ [x.1])
          rw [List.map_append] at this
          exact this

theorem sim_tokenBody (h : RecSim r r') : RecSim (tokenBody r) (tokenBody r') := by
  intro t ctx prev cur
  unfold tokenBody
  rw [Token.bare_name, Token.bare_lines]
  refine Sim.bind' (f := id) ?_ (fun _ => ?_)
  · intro s
    unfold enter
    rw [Token.bare_name, Stk.bare_get]
    cases s.get t.name with
    | some e => rfl
    | none => exact congrArg (Prod.mk _) (Stk.bare_put s t.name ⟨t, []⟩).symm
  refine Sim.bind' (Sim.thenDelete' _ (sim_blockLoop h t ctx prev cur 0 t.lines [])) (fun x => ?_)
  refine Sim.ite' (by simp [blockBare]) (Sim.fail' _) ?_
  refine Sim.bind' (sim_skipChannels h ctx.channels prev x.2) (fun s => Sim.pure' ?_)
  simp [Tree.bare, skippedBare, blockBare, mkBlock_bare, treesBare_eq]

theorem sim_token (n : Nat) : RecSim (token n) (token n) := by
  induction n with
  | zero => intro t ctx prev cur; exact Sim.oof' _
  | succ n ih => exact sim_tokenBody ih

/-- The parser does the same with and without suites. -/
theorem execute_bare (n : Nat) (g : Grammar) (input : Bytes) :
    execute n g.bare input = (execute n g input).map Tree.bare := by
  unfold execute
  rw [Grammar.bare_root, Grammar.bare_channels]
  have := sim_token n g.root ⟨none, g.channels, false⟩ [] input []
  exact congrArg Prod.fst this

end Rodkina.Ast
