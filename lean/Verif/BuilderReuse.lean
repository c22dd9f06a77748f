import Verif.Builders
import Verif.QueryBuilders
import Verif.InterpBuilders
import Verif.TreeBuilders
import Verif.DataBuilders
/-!
# What `Now` leaves in a builder

`Verif.Builders` leaves out that `Now` may assign to the builder's own fields: it replaces an empty list by `nil`, and the builder
of hash trees adds an empty block.  Here a builder is used for a while, `Now` included, with these assignments in view.  The
builders that are not listed assign no field in `Now`.
-/

namespace Rodkina.Reuse

open Rodkina.Ast.Build (Builder)

/-- A method called on a builder. -/
inductive Step (κ : Type) where
  | create
  | call (k : κ)
  | now

/-- The fields of a new builder after some calls, `Now` included; `effect` is what `Now` assigns (for instance
libs/asts/domain/grammars/block_builder.go:31-34). -/
def after {σ κ α : Type} (b : Builder σ κ α) (effect : σ → σ) (steps : List (Step κ)) : σ :=
  steps.foldl (fun s st => match st with | .create => b.init | .call k => b.set k s | .now => effect s) b.init

/-- `if x != nil && len(x) <= 0 { x = nil }`, for instance libs/asts/domain/grammars/block_builder.go:32-34. -/
def nilIfEmpty {α : Type} : Option (List α) → Option (List α)
  | some [] => none
  | l => l

/-- What `Now` assigns in the builders of lists: libs/asts/domain/grammars/block_builder.go:32-34, libs/asts/domain/grammars/channels_builder.go:32-34,
libs/asts/domain/grammars/line_builder.go:32-34, libs/asts/domain/grammars/suites_builder.go:32-34, libs/asts/domain/grammars/tokens_builder.go:32-34, libs/asts/domain/grammars/coverages/builder.go:30-32,
libs/asts/domain/grammars/coverages/executions_builder.go:30-32, libs/asts/domain/trees/block_builder.go:30-32, libs/asts/domain/trees/builder.go:30-32, libs/asts/domain/trees/contents_builder.go:30-32,
libs/asts/domain/trees/elements_builder.go:30-32, libs/cryptography/domain/hashtrees/leaves_builder.go:30-32, libs/databases/domain/contents/builder.go:30-32,
libs/databases/domain/references/commits_builder.go:30-32, libs/databases/domain/references/contentkeys_builder.go:30-32,
libs/interpreters/domain/programs/attachments_builder.go:32-34, libs/interpreters/domain/programs/instructions_builder.go:32-34, libs/interpreters/domain/programs/modules/builder.go:32-34,
libs/queries/domain/queries/fetchers_builder.go:30-32. -/
def listEffect {α : Type} (s : Option (List α)) : Option (List α) := nilIfEmpty s

/-- What `Now` assigns, libs/asts/domain/grammars/compose_builder.go:40-46. -/
def composeEffect (s : String × Option (List (UInt8 × Nat))) : String × Option (List (UInt8 × Nat)) :=
  if s.1 = "" then s else (s.1, nilIfEmpty s.2)

/-- What `Now` assigns, libs/asts/domain/trees/tree_builder.go:58-68. -/
def astTreeEffect (s : Ast.TreeBuild.TreeFields) : Ast.TreeBuild.TreeFields :=
  match s.grammar, s.block with
  | some _, some _ => { s with remaining := nilIfEmpty s.remaining }
  | _, _ => s

/-- What `Now` assigns, libs/interpreters/domain/instructions/builder.go:36-47. -/
def instructionsEffect (s : Interp.Build.InstructionsFields) : Interp.Build.InstructionsFields :=
  match nilIfEmpty s.list with
  | none => { s with list := none }
  | some l => { list := some l, remaining := nilIfEmpty s.remaining }

/-- What `Now` assigns, libs/interpreters/domain/programs/builder.go:40-46. -/
def programEffect {W σ : Type} (s : Interp.Build.ProgramFields W σ) : Interp.Build.ProgramFields W σ :=
  match s.instructions with
  | none => s
  | some _ => { s with outputs := nilIfEmpty s.outputs }

/-- What `Now` assigns, libs/databases/domain/contents/content_builder.go:50-60. -/
def contentEffect (s : DataBuild.ContentFields) : DataBuild.ContentFields :=
  match s.hash, s.kind with
  | some _, some _ => { s with data := nilIfEmpty s.data }
  | _, _ => s

/-- What `Now` assigns, libs/cryptography/domain/hashtrees/builder.go:69-79: unless head and parent are given, one empty block is
added to fewer than two blocks. -/
def treeEffect (s : DataBuild.TreeFields) : DataBuild.TreeFields :=
  match s.head, s.parent with
  | some _, some _ => s
  | _, _ =>
    match s.blocks with
    | none => s
    | some bs => if bs.length ≤ 1 then { s with blocks := some (bs ++ [[]]) } else s

end Rodkina.Reuse
