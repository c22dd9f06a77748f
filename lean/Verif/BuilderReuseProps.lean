import Verif.BuilderReuseLemmas
import Verif.DataBuildersProps
/-!
# C115: using a builder again after `Now`
-/

namespace Rodkina.Props

open Rodkina.Reuse
open Rodkina.Ast.Build (Builder listBuilder)

/-! ## C115

Wanted: calling `Now`, once or more, at any time, has no influence on what the builder gives afterwards.  It holds for all builders
but that of hash trees. -/

/-- **C115 (partial): lists and composed values.** Missing: hash trees of empty lists of blocks (`C115_hash_tree_changes`). -/
theorem C115_lists_partial :
    (∀ α : Type, Reusable (listBuilder α) listEffect (fun _ => True)) ∧
    Reusable Ast.TreeBuild.blockBuilder listEffect (fun _ => True) ∧
    Reusable DataBuild.contentKeysBuilder listEffect (fun _ => True) ∧
    Reusable DataBuild.commitsBuilder listEffect (fun _ => True) ∧
    Reusable Ast.Build.composeBuilder composeEffect (fun _ => True) :=
  ⟨list_reusable, block_reusable, contentKeys_reusable, commits_reusable, compose_reusable⟩

/-- **C115 (partial): trees, instructions, programs and contents.** -/
theorem C115_objects_partial (W σ : Type) :
    Reusable Ast.TreeBuild.treeBuilder astTreeEffect (fun _ => True) ∧
    Reusable Interp.Build.instructionsBuilder instructionsEffect (fun _ => True) ∧
    Reusable (Interp.Build.programBuilder W σ) programEffect (fun _ => True) ∧
    Reusable DataBuild.contentBuilder contentEffect (fun _ => True) :=
  ⟨astTree_reusable, instructions_reusable, program_reusable W σ, content_reusable⟩

/-- **C115 (partial): hash trees,** unless an empty list of blocks was given. -/
theorem C115_hash_tree_partial (S : Sha) :
    Reusable (DataBuild.treeBuilder S) treeEffect (fun k => ∀ bs, k = .withBlocks (some bs) → bs ≠ []) :=
  tree_reusable S

-- `Now` is called in between, on lists that it replaces by `nil`, and on one block, to which it adds another
example : (listBuilder Nat).now (after (listBuilder Nat) listEffect [.call (some []), .now, .now, .call (some [3]), .now]) = .ok [3] :=
  C115_lists_partial.1 Nat [.call (some []), .now, .now, .call (some [3]), .now] (by simp)

example (S : Sha) : (DataBuild.treeBuilder S).now (after (DataBuild.treeBuilder S) treeEffect [.call (.withBlocks (some [[1]])), .now, .now]) =
    (DataBuild.treeBuilder S).build [some (.withBlocks (some [[1]]))] :=
  C115_hash_tree_partial S [.call (.withBlocks (some [[1]])), .now, .now] (by simp)

/-- **C115 (negation).** The builder of hash trees, given an empty list of blocks: the first `Now` panics, the second one builds a
tree; `Now` does have an influence on the next one. -/
theorem C115_hash_tree_changes (S : Sha) :
    (DataBuild.treeBuilder S).now (after (DataBuild.treeBuilder S) treeEffect [.call (.withBlocks (some []))]) = .panic ∧
    (∃ t, (DataBuild.treeBuilder S).now (after (DataBuild.treeBuilder S) treeEffect [.call (.withBlocks (some [])), .now]) = .ok t) ∧
    ¬ Reusable (DataBuild.treeBuilder S) treeEffect (fun _ => True) := by
  have h1 : (DataBuild.treeBuilder S).now (after (DataBuild.treeBuilder S) treeEffect [.call (.withBlocks (some []))]) = .panic :=
    C04_empty_list_panics S
  have h2 : ∃ t, (DataBuild.treeBuilder S).now (after (DataBuild.treeBuilder S) treeEffect [.call (.withBlocks (some [])), .now]) = .ok t := by
    obtain ⟨t, _, _, h, _⟩ := C03_build_is_merkle S [[]] (by simp)
    exact ⟨t, h⟩
  refine ⟨h1, h2, ?_⟩
  intro h
  obtain ⟨t, h2⟩ := h2
  have := h [.call (.withBlocks (some [])), .now] (by simp)
  rw [h2] at this
  have e : (DataBuild.treeBuilder S).build (withoutNow [.call (.withBlocks (some [])), .now]) = .panic := C04_empty_list_panics S
  rw [e] at this
  cases this

end Rodkina.Props
