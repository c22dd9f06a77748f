import Verif.BuilderReuseSpec
/-! Lemmas about builders that are used again. -/

namespace Rodkina.Reuse

open Rodkina.Ast.Build (Builder listBuilder)

theorem reusable_of {σ κ α : Type} (b : Builder σ κ α) (eff nf : σ → σ) (P : σ → Prop) (Q : κ → Prop) (h0 : P b.init)
    (hk : ∀ k s, Q k → P s → P (b.set k s)) (he : ∀ s, P s → P (eff s)) (h1 : ∀ s, P s → nf (eff s) = nf s)
    (h2 : ∀ k s, P s → nf (b.set k s) = nf (b.set k (nf s))) (h3 : ∀ s, P s → b.now s = b.now (nf s)) : Reusable b eff Q := by
  intro steps hs
  have key : ∀ (steps : List (Step κ)) (s t : σ), (∀ k, .call k ∈ steps → Q k) → P s → P t → nf s = nf t →
      P (steps.foldl (fun s st => match st with | .create => b.init | .call k => b.set k s | .now => eff s) s) ∧
      P ((withoutNow steps).foldl (fun s k => match k with | none => b.init | some k => b.set k s) t) ∧
      nf (steps.foldl (fun s st => match st with | .create => b.init | .call k => b.set k s | .now => eff s) s) =
        nf ((withoutNow steps).foldl (fun s k => match k with | none => b.init | some k => b.set k s) t) := by
    intro steps
    induction steps with
    | nil => intro s t _ ps pt e; exact ⟨ps, pt, e⟩
    | cons st steps ih =>
      intro s t hq ps pt e
      have hq' : ∀ k, .call k ∈ steps → Q k := fun k hk => hq k (List.mem_cons_of_mem _ hk)
      cases st with
      | create => exact ih b.init b.init hq' h0 h0 rfl
      | call k =>
        have hqk : Q k := hq k (List.mem_cons_self ..)
        exact ih (b.set k s) (b.set k t) hq' (hk k s hqk ps) (hk k t hqk pt) (by rw [h2 k s ps, h2 k t pt, e])
      | now => exact ih (eff s) t hq' (he s ps) pt ((h1 s ps).trans e)
  obtain ⟨p1, p2, e⟩ := key steps b.init b.init hs h0 h0 rfl
  exact (h3 _ p1).trans ((congrArg b.now e).trans (h3 _ p2).symm)

theorem reusable_simple {σ κ α : Type} (b : Builder σ κ α) (eff nf : σ → σ) (h1 : ∀ s, nf (eff s) = nf s)
    (h2 : ∀ k s, nf (b.set k s) = nf (b.set k (nf s))) (h3 : ∀ s, b.now s = b.now (nf s)) : Reusable b eff (fun _ => True) :=
  reusable_of b eff nf (fun _ => True) _ trivial (fun _ _ _ _ => trivial) (fun _ _ => trivial) (fun s _ => h1 s) (fun k s _ => h2 k s) (fun s _ => h3 s)

theorem nilIfEmpty_twice {α : Type} (l : Option (List α)) : nilIfEmpty (nilIfEmpty l) = nilIfEmpty l := by
  rcases l with _ | _ | ⟨a, l⟩ <;> rfl

theorem list_reusable (α : Type) : Reusable (listBuilder α) listEffect (fun _ => True) :=
  reusable_simple _ _ nilIfEmpty nilIfEmpty_twice (fun _ _ => rfl) (by intro s; rcases s with _ | _ | ⟨a, l⟩ <;> rfl)

theorem block_reusable : Reusable Ast.TreeBuild.blockBuilder listEffect (fun _ => True) :=
  reusable_simple _ _ nilIfEmpty nilIfEmpty_twice (fun _ _ => rfl) (by intro s; rcases s with _ | _ | ⟨a, l⟩ <;> rfl)

theorem contentKeys_reusable : Reusable DataBuild.contentKeysBuilder listEffect (fun _ => True) :=
  reusable_simple _ _ nilIfEmpty nilIfEmpty_twice (fun _ _ => rfl) (by intro s; rcases s with _ | _ | ⟨a, l⟩ <;> rfl)

theorem commits_reusable : Reusable DataBuild.commitsBuilder listEffect (fun _ => True) :=
  reusable_simple _ _ nilIfEmpty nilIfEmpty_twice (fun _ _ => rfl) (by intro s; rcases s with _ | _ | ⟨a, l⟩ <;> rfl)

theorem compose_reusable : Reusable Ast.Build.composeBuilder composeEffect (fun _ => True) := by
  refine reusable_simple _ _ (fun s => (s.1, nilIfEmpty s.2)) ?_ ?_ ?_
  · intro s; unfold composeEffect; split <;> simp [nilIfEmpty_twice]
  · intro k s; cases k <;> simp [Ast.Build.composeBuilder, nilIfEmpty_twice]
  · rintro ⟨n, l⟩; rcases l with _ | _ | ⟨a, l⟩ <;> rfl

theorem astTree_reusable : Reusable Ast.TreeBuild.treeBuilder astTreeEffect (fun _ => True) := by
  refine reusable_simple _ _ (fun s => { s with remaining := nilIfEmpty s.remaining }) ?_ ?_ ?_
  · intro s; unfold astTreeEffect; split <;> simp [nilIfEmpty_twice]
  · intro k s; cases k <;> simp [Ast.TreeBuild.treeBuilder, nilIfEmpty_twice]
  · rintro ⟨g, b, s, r⟩
    rcases r with _ | _ | ⟨a, l⟩ <;> cases g <;> cases b <;> cases s <;> rfl

theorem instructions_reusable : Reusable Interp.Build.instructionsBuilder instructionsEffect (fun _ => True) := by
  refine reusable_simple _ _ (fun s => ⟨nilIfEmpty s.list, nilIfEmpty s.remaining⟩) ?_ ?_ ?_
  · rintro ⟨l, r⟩
    rcases l with _ | _ | ⟨a, l⟩ <;> rcases r with _ | _ | ⟨a, r⟩ <;> rfl
  · intro k s; cases k <;> simp [Interp.Build.instructionsBuilder, nilIfEmpty_twice]
  · rintro ⟨l, r⟩
    rcases l with _ | _ | ⟨a, l⟩ <;> rcases r with _ | _ | ⟨a, r⟩ <;> rfl

theorem program_reusable (W σ : Type) : Reusable (Interp.Build.programBuilder W σ) programEffect (fun _ => True) := by
  refine reusable_simple _ _ (fun s => { s with outputs := nilIfEmpty s.outputs }) ?_ ?_ ?_
  · intro s; unfold programEffect; split <;> simp [nilIfEmpty_twice]
  · intro k s; cases k <;> simp [Interp.Build.programBuilder, nilIfEmpty_twice]
  · rintro ⟨is, os⟩
    cases is <;> rcases os with _ | _ | ⟨a, l⟩ <;> rfl

theorem content_reusable : Reusable DataBuild.contentBuilder contentEffect (fun _ => True) := by
  refine reusable_simple _ _ (fun s => { s with data := nilIfEmpty s.data }) ?_ ?_ ?_
  · intro s; unfold contentEffect; split <;> simp [nilIfEmpty_twice]
  · intro k s; cases k <;> simp [DataBuild.contentBuilder, nilIfEmpty_twice]
  · rintro ⟨h, d, k⟩
    cases h <;> cases k <;> rcases d with _ | _ | ⟨a, l⟩ <;> rfl

/-- The blocks with the one that `Now` adds. -/
def padded (bs : List Bytes) : List Bytes := if bs.length ≤ 1 then bs ++ [[]] else bs

theorem padded_twice {bs : List Bytes} (h : bs ≠ []) : padded (padded bs) = padded bs := by
  have := List.length_pos_iff.mpr h
  unfold padded
  split
  · rw [if_neg (by simp; omega)]
  · rfl

theorem build_padded (S : Sha) {bs : List Bytes} (h : bs ≠ []) : HashTree.build S (some (padded bs)) = HashTree.build S (some bs) := by
  have e := padded_twice h
  unfold padded at e
  unfold HashTree.build padded
  dsimp only
  rw [e]

theorem tree_reusable (S : Sha) :
    Reusable (DataBuild.treeBuilder S) treeEffect (fun k => ∀ bs, k = .withBlocks (some bs) → bs ≠ []) := by
  refine reusable_of _ _ (fun s => { s with blocks := s.blocks.map padded }) (fun s => s.blocks ≠ some []) _ ?_ ?_ ?_ ?_ ?_ ?_
  · simp [DataBuild.treeBuilder]
  · intro k s hq hs
    cases k with
    | withBlocks x =>
      simp only [DataBuild.treeBuilder]
      rintro rfl
      exact hq [] rfl rfl
    | withHead x => exact hs
    | withParent x => exact hs
  · rintro ⟨b, h, p⟩ hs
    unfold treeEffect
    rcases b with _ | b <;> cases h <;> cases p <;> simp only <;> first
      | exact hs
      | (split <;> first | exact hs | simp)
  · rintro ⟨b, h, p⟩ hs
    have hb : ∀ x, b = some x → x ≠ [] := by rintro x rfl rfl; exact hs rfl
    unfold treeEffect
    rcases b with _ | b <;> cases h <;> cases p <;> simp only <;> try rfl
    all_goals
      have e := padded_twice (hb b rfl)
      unfold padded at e
      split
      · rename_i hc
        rw [if_pos hc] at e
        simp only [Option.map_some]
        unfold padded
        rw [e, if_pos hc]
      · rfl
  · rintro k ⟨b, h, p⟩ hs
    have hb : ∀ x, b = some x → x ≠ [] := by rintro x rfl rfl; exact hs rfl
    cases k <;> rcases b with _ | b <;> simp only [DataBuild.treeBuilder, Option.map_some, Option.map_none]
    all_goals rw [padded_twice (hb b rfl)]
  · rintro ⟨b, h, p⟩ hs
    have hb : ∀ x, b = some x → x ≠ [] := by rintro x rfl rfl; exact hs rfl
    rcases b with _ | b <;> cases h <;> cases p <;> simp only [DataBuild.treeBuilder, Option.map_none, Option.map_some] <;> first
      | rfl
      | exact (build_padded S (hb b rfl)).symm

end Rodkina.Reuse
