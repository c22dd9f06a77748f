import Verif.Ast

/-!
# Model: the steps the parser takes

The functions of libs/asts/applications/application.go again, as in Ast.lean, with a count of steps: one for every call of `token` and one
for every turn of a loop (over lines, containers, contents, composed bytes, channels, and the turns of the loops without end). What lies
between two steps takes no loop of its own, but for the copying and comparing of slices of the input. That the outcomes are those of
Ast.lean is proved (`erase_execute`, AstCostLemmas.lean).
-/

namespace Rodkina.Ast.Cost

/-- A parser computation as in Ast.lean, with the number of steps it took. -/
def CM (α : Type) : Type := Stk → Out α × Stk × Nat

namespace CM

/-- Return a value: no step. -/
def ret {α : Type} (a : α) : CM α := fun s => (.ok a, s, 0)

/-- Sequencing, as `M.andThen`: the steps add up. -/
def andThen {α β : Type} (m : CM α) (f : α → CM β) : CM β := fun s =>
  match m s with
  | (.ok a, s', k) => ((f a s').1, (f a s').2.1, k + (f a s').2.2)
  | (.err, s', k) => (.err, s', k)
  | (.panic, s', k) => (.panic, s', k)
  | (.oof, s', k) => (.oof, s', k)

instance : Monad CM where
  pure := ret
  bind := andThen

/-- A computation of Ast.lean that takes no step. -/
def lift {α : Type} (m : M α) : CM α := fun s => ((m s).1, (m s).2, 0)

/-- One step. -/
def tick : CM Unit := fun s => (.ok (), s, 1)

/-- As `M.attempt`. -/
def attempt {α : Type} (m : CM α) : CM (Option α) := fun s =>
  match m s with
  | (.ok a, s', k) => (.ok (some a), s', k)
  | (.err, s', k) => (.ok none, s', k)
  | (.panic, s', k) => (.panic, s', k)
  | (.oof, s', k) => (.oof, s', k)

/-- As `M.fresh`. -/
def fresh {α : Type} (m : CM α) : CM α := fun s => ((m []).1, s, (m []).2.2)

/-- As `M.thenDelete`. -/
def thenDelete {α : Type} (name : String) (m : CM α) : CM α := fun s => ((m s).1, (m s).2.1.del name, (m s).2.2)

end CM

open CM

/-- The type of the recursive call, as `Ast.Rec`. -/
abbrev Rec := Token → Ctx → Bytes → Bytes → CM Tree

/-! ## Channels -/

/-- One side of `channelCondition`, libs/asts/applications/application.go:1074-1083 and 1085-1094. -/
def condMatch (rec : Rec) (t : Option Token) (data : Bytes) : CM Bool :=
  match t with
  | none => pure true
  | some t => do
    let _ ← fresh (rec t Ctx.plain [] data)
    pure true

/-- `channelCondition`, libs/asts/applications/application.go:1073-1096. -/
def channelCondition (rec : Rec) (c : Channel) (prev next : Bytes) : CM Bool := do
  let p ← condMatch rec c.previous prev
  let n ← condMatch rec c.next next
  pure (p && n)

/-- `channel`, libs/asts/applications/application.go:1046-1071. -/
def channel (rec : Rec) (c : Channel) (prev cur : Bytes) : CM (Option Tree) := do
  let tree ← fresh (rec c.token Ctx.plain prev cur)
  let accepted ← channelCondition rec c prev tree.remaining
  pure (if accepted then some tree else none)

/-- The inner loop of `channels`, libs/asts/applications/application.go:1012-1031: a step per channel. -/
def channelRound (rec : Rec) : List Channel → ChState → CM ChState
  | [], st => pure st
  | c :: cs, st => do
    tick
    let r ← attempt (channel rec c st.prev st.rem)
    let st' ← lift (channelApply st r)
    channelRound rec cs st'

/-- The outer loop of `channels`, libs/asts/applications/application.go:1010-1036: a step per turn. -/
def channelLoop (rec : Rec) (chs : List Channel) : Nat → ChState → CM ChState
  | 0, _ => lift M.oof
  | k + 1, st => do
    tick
    let st' ← channelRound rec chs st
    if st'.list.length = st.list.length then pure st' else channelLoop rec chs k st'

/-- `channels`, libs/asts/applications/application.go:1004-1044. -/
def channels (rec : Rec) (chs : List Channel) (prev cur : Bytes) : CM (List Tree × Bytes) := do
  let st ← channelLoop rec chs (cur.length + 1) ⟨[], prev, cur⟩
  if st.list.isEmpty then lift M.fail else pure (st.list, st.rem)

/-- The idiom around `channels`, libs/asts/applications/application.go:535-541 and 963-969. -/
def skipChannels (rec : Rec) (chs : List Channel) (prev cur : Bytes) : CM (List Tree × Bytes) :=
  if chs.isEmpty then pure ([], cur)
  else do
    let r ← attempt (channels rec chs prev cur)
    pure (orUnchanged cur r)

/-! ## Elements -/

/-- `elementValue`, libs/asts/applications/application.go:960-986. -/
def elementValue (rec : Rec) (number : UInt8) (ctx : Ctx) (prev cur : Bytes) : CM (Option (TContent × Bytes)) := do
  let r ← skipChannels rec ctx.channels prev cur
  lift (matchByte number r.1 r.2)

/-- `external`, libs/asts/applications/application.go:555-582. -/
def external (rec : Rec) (name : String) (g : Grammar) (rev : Bool) (prev cur : Bytes) : CM Tree := do
  let t ← fresh (rec g.root ⟨none, g.channels, rev⟩ prev cur)
  pure (.mk (.mk name g.root.lines g.root.suites) t.block [] [])

/-- `elementContent`, libs/asts/applications/application.go:892-958. -/
def elementContent (rec : Rec) (c : Content) (ctx : Ctx) (prev cur : Bytes) : CM (Option (TContent × Bytes)) :=
  match c with
  | .external name g => do
    let t ← external rec name g ctx.reverse prev cur
    pure (treeContent t)
  | .token t => do
    let t ← rec t ctx prev cur
    pure (treeContent t)
  | .everything _ exception escape => do
    let t ← rec exception ⟨escape, [], !ctx.reverse⟩ prev cur
    pure (treeContent t)
  | .recursive name => do
    let tok ← lift (recursiveToken name)
    let t ← rec tok ctx prev cur
    pure (treeContent t)
  | .value _ number =>
    if cur.isEmpty then lift M.fail else elementValue rec number ctx prev cur

/-- `element`, libs/asts/applications/application.go:856-890. -/
def element (rec : Rec) (c : Content) (ctx : Ctx) (prev cur : Bytes) : CM (TContent × Bytes) :=
  if cur.isEmpty then lift M.fail
  else do
    let r ← elementContent rec c ctx prev cur
    lift (acceptContent r)

/-- Continuation of the element loop, libs/asts/applications/application.go:803-812. -/
def elementNext (st : ElState) (next : ElState → CM ElState) (r : Option (TContent × Bytes)) : CM ElState :=
  match r with
  | none => pure st
  | some x => next ⟨st.list ++ [x.1], st.rem, x.2⟩

/-- The element loop of `line`, libs/asts/applications/application.go:790-812: a step per turn. -/
def elementLoop (rec : Rec) (c : Content) (max : Option Nat) (ctx : Ctx) : Nat → ElState → CM ElState
  | 0, _ => lift M.oof
  | k + 1, st => do
    tick
    if st.rem.isEmpty then pure st
    else if reachedMax max st.list.length then pure st
    else do
      let r ← attempt (element rec c ctx st.prev st.rem)
      elementNext st (elementLoop rec c max ctx k) r

/-! ## Lines -/

/-- Continuation in the compose loop, libs/asts/applications/application.go:751-759. -/
def composeNext (next : Bytes → CM Unit) (r : Option (TContent × Bytes)) : CM Unit :=
  match r with
  | none => lift M.fail
  | some x => next x.2

/-- The loop over the elements of a compose in `line`, libs/asts/applications/application.go:744-770: a step per element. -/
def composeLoop (rec : Rec) (ctx : Ctx) (prev : Bytes) : List (UInt8 × Nat) → Bytes → CM Unit
  | [], _ => pure ()
  | e :: es, rem => do
    tick
    let r ← elementValue rec e.1 ctx prev rem
    composeNext (composeLoop rec ctx prev es) r

/-- One container in `line`, libs/asts/applications/application.go:739-833. -/
def lineStep (rec : Rec) (ctx : Ctx) (prev0 : Bytes) (c : Container) (st : LnState) : CM LnState :=
  match c with
  | .compose cmp => do
    composeLoop rec ctx prev0 cmp.list st.rem
    lift M.fail
  | .element min max content => do
    let r ← elementLoop rec content max ctx (st.rem.length + 1) ⟨[], st.prev, st.rem⟩
    if r.list.length < goMin min then lift M.fail
    else pure ⟨if r.list.isEmpty then st.list else st.list ++ [.mk (some c) r.list], r.prev, r.rem⟩

/-- The container loop of `line`, libs/asts/applications/application.go:739-833: a step per container. -/
def lineLoop (rec : Rec) (ctx : Ctx) (prev0 : Bytes) : List Container → LnState → CM LnState
  | [], st => pure st
  | c :: cs, st => do
    tick
    let st' ← lineStep rec ctx prev0 c st
    lineLoop rec ctx prev0 cs st'

/-- `line`, libs/asts/applications/application.go:733-854. -/
def line (rec : Rec) (idx : Nat) (g : GLine) (ctx : Ctx) (prev cur : Bytes) : CM (TLine × Bytes) := do
  let st ← lineLoop rec ctx prev g.containers ⟨[], prev, cur⟩
  pure (.mk idx g false st.list, st.rem)

/-! ## Blocks -/

/-- Use of the escape tree, libs/asts/applications/application.go:623-649. -/
def escapeLine (rec : Rec) (idx : Nat) (g : GLine) (ctx : Ctx) (st : RvState) (r : Option Tree) : CM RvState :=
  match r with
  | none => pure st
  | some t =>
    if t.isSuccessful && !t.remaining.isEmpty then do
      let r ← attempt (line rec idx g ctx st.rem t.remaining)
      lift (escapeApply st t.remaining r)
    else pure st

/-- The escape part of the reverse loop, libs/asts/applications/application.go:621-651. -/
def escapeStep (rec : Rec) (idx : Nat) (g : GLine) (ctx : Ctx) (st : RvState) : CM RvState :=
  match ctx.escape with
  | none => pure st
  | some esc => do
    let r ← attempt (rec esc ⟨none, ctx.channels, false⟩ st.prev st.rem)
    escapeLine rec idx g ctx st r

/-- End of one turn of the reverse loop, libs/asts/applications/application.go:653-670. -/
def reverseNext (st : RvState) (next : RvState → CM RvState) (r : Option (TLine × Bytes)) : CM RvState :=
  match r with
  | some _ => pure st
  | none =>
    match st.rem with
    | [] => lift M.crash
    | b :: rest => next ⟨st.list ++ [.value [] b], st.rem, rest⟩

/-- The reverse loop, libs/asts/applications/application.go:616-671: a step per turn. -/
def reverseLoop (rec : Rec) (idx : Nat) (g : GLine) (ctx : Ctx) : Nat → RvState → CM RvState
  | 0, _ => lift M.oof
  | k + 1, st => do
    tick
    if st.rem.isEmpty then pure st
    else do
      let st' ← escapeStep rec idx g ctx st
      let r ← attempt (line rec idx g ctx st'.prev st'.rem)
      reverseNext st' (reverseLoop rec idx g ctx k) r

/-- The reverse branch of `block`, libs/asts/applications/application.go:612-703. -/
def reverseLine (rec : Rec) (idx : Nat) (g : GLine) (ctx : Ctx) (prev cur : Bytes) (acc : List TLine) :
    CM (List TLine × Bytes) := do
  let st ← reverseLoop rec idx g ctx (cur.length + 1) ⟨[], prev, cur⟩
  if st.list.isEmpty then lift M.fail
  else pure (acc ++ [.mk idx g true [.mk none st.list]], st.rem)

/-- Continuation after `line` in `block`, libs/asts/applications/application.go:706-717. -/
def lineNext (acc : List TLine) (next : List TLine → CM (List TLine × Bytes)) (r : Option (TLine × Bytes)) :
    CM (List TLine × Bytes) :=
  match r with
  | none => next acc
  | some x => if x.1.isSuccessful then pure (acc ++ [x.1], x.2) else next (acc ++ [x.1])

/-- The loop over the lines in `block`, libs/asts/applications/application.go:591-718: a step per line. -/
def blockLoop (rec : Rec) (tok : Token) (ctx : Ctx) (prev cur : Bytes) :
    Nat → List GLine → List TLine → CM (List TLine × Bytes)
  | _, [], acc => pure (acc, cur)
  | idx, g :: gs, acc => do
    tick
    let skip ← lift (alreadyTried tok idx cur)
    if skip then blockLoop rec tok ctx prev cur (idx + 1) gs acc
    else do
      lift (recordLine tok idx cur)
      if ctx.reverse then reverseLine rec idx g ctx prev cur acc
      else do
        let r ← attempt (line rec idx g ctx prev cur)
        lineNext acc (blockLoop rec tok ctx prev cur (idx + 1) gs) r

/-! ## Tokens -/

/-- `token`, libs/asts/applications/application.go:512-553: a step. -/
def tokenBody (rec : Rec) (tok : Token) (ctx : Ctx) (prev cur : Bytes) : CM Tree := do
  tick
  lift (enter tok)
  let r ← thenDelete tok.name (blockLoop rec tok ctx prev cur 0 tok.lines [])
  if r.1.isEmpty then lift M.fail
  else do
    let s ← skipChannels rec ctx.channels prev r.2
    pure (.mk tok (mkBlock r.1) s.1 s.2)

/-- `token` with nesting depth at most `n`. -/
def token : Nat → Rec
  | 0 => fun _ _ _ _ => lift M.oof
  | n + 1 => tokenBody (token n)

/-- The steps of `Execute`, libs/asts/applications/application.go:113-115 and 501-510, with nesting depth at most `n`. -/
def steps (n : Nat) (g : Grammar) (input : Bytes) : Nat :=
  (token n g.root ⟨none, g.channels, false⟩ [] input []).2.2

end Rodkina.Ast.Cost
