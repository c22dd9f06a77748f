import Verif.DataBuildersSpec
import Verif.BuildersLemmas
import Verif.ReferencesLemmas
import Verif.HashTreeProps
/-! Lemmas about the builders of hash trees, contents and references. -/

namespace Rodkina.DataBuildSpec

open Rodkina.HashTree (Leaf Tree Compact)
open Rodkina.Ref
open DataBuild
open Rodkina.Ast.Build (Builder listBuilder)
open Rodkina.Ast.BuildSpec

theorem leaf_build (calls : List (Option (LeafCall))) (l : Leaf) :
    leafBuilder.build calls = .ok l ↔
      some l.head = givenPart LeafCall.head? calls ∧ l.parent? = givenPart LeafCall.parent? calls := by
  have h0 := field_part leafBuilder (·.head) LeafCall.head? (by intro k s; cases k <;> rfl) rfl calls
  have h1 := field_part leafBuilder (·.parent) LeafCall.parent? (by intro k s; cases k <;> rfl) rfl calls
  unfold Builder.build
  rw [← h0, ← h1]
  obtain ⟨h, p⟩ := leafBuilder.run calls
  rcases l with lh | ⟨lh, ll, lr⟩ <;> simp only [Leaf.head, Leaf.parent?]
  all_goals cases h <;> rcases p with _ | ⟨pl, pr⟩ <;> simp [leafBuilder] <;> grind

theorem parentLeaf_build (calls : List (Option (ParentLeafCall))) (p : Leaf × Leaf) :
    parentLeafBuilder.build calls = .ok p ↔
      some p.1 = givenPart ParentLeafCall.left? calls ∧ some p.2 = givenPart ParentLeafCall.right? calls := by
  have h0 := field_part parentLeafBuilder (·.left) ParentLeafCall.left? (by intro k s; cases k <;> rfl) rfl calls
  have h1 := field_part parentLeafBuilder (·.right) ParentLeafCall.right? (by intro k s; cases k <;> rfl) rfl calls
  unfold Builder.build
  rw [← h0, ← h1]
  obtain ⟨l, r⟩ := parentLeafBuilder.run calls
  obtain ⟨pl, pr⟩ := p
  cases l <;> cases r <;> simp [parentLeafBuilder] <;> grind

theorem compact_build (calls : List (Option (CompactCall))) (c : Compact) :
    compactBuilder.build calls = .ok c ↔
      some c.head = givenPart CompactCall.head? calls ∧ some c.leaves = givenPart CompactCall.leaves? calls := by
  have h0 := field_part compactBuilder (·.head) CompactCall.head? (by intro k s; cases k <;> rfl) rfl calls
  have h1 := field_part compactBuilder (·.leaves) CompactCall.leaves? (by intro k s; cases k <;> rfl) rfl calls
  unfold Builder.build
  rw [← h0, ← h1]
  obtain ⟨h, l⟩ := compactBuilder.run calls
  obtain ⟨ch, cl⟩ := c
  cases h <;> cases l <;> simp [compactBuilder] <;> grind

theorem tree_build (S : Sha) (calls : List (Option (TreeCall))) (t : Tree) :
    (treeBuilder S).build calls = .ok t ↔
      (∃ h p, givenPart TreeCall.head? calls = some h ∧ givenPart TreeCall.parent? calls = some p ∧ t = ⟨h, p.1, p.2⟩) ∨
        ((givenPart TreeCall.head? calls = none ∨ givenPart TreeCall.parent? calls = none) ∧
          HashTree.build S (givenPart TreeCall.blocks? calls) = .ok t) := by
  have h0 := field_part (treeBuilder S) (·.blocks) TreeCall.blocks? (by intro k s; cases k <;> rfl) rfl calls
  have h1 := field_part (treeBuilder S) (·.head) TreeCall.head? (by intro k s; cases k <;> rfl) rfl calls
  have h2 := field_part (treeBuilder S) (·.parent) TreeCall.parent? (by intro k s; cases k <;> rfl) rfl calls
  unfold Builder.build
  rw [← h0, ← h1, ← h2]
  obtain ⟨b, h, p⟩ := (treeBuilder S).run calls
  cases h <;> rcases p with _ | ⟨pl, pr⟩ <;> simp [treeBuilder] <;> grind

theorem pointer_build (calls : List (Option (PointerCall))) (p : Pointer) :
    pointerBuilder.build calls = .ok p ↔
      some p.from' = givenPart PointerCall.from_? calls ∧ p.length = (given PointerCall.length? calls).getD 0 ∧ 0 < p.length := by
  have h0 : (pointerBuilder.run calls).length = (given PointerCall.length? calls).getD 0 :=
    field pointerBuilder (·.length) PointerCall.length? (by intro k s; cases k <;> rfl) calls
  have h1 := field_part pointerBuilder (·.from_) PointerCall.from_? (by intro k s; cases k <;> rfl) rfl calls
  unfold Builder.build
  rw [← h0, ← h1]
  obtain ⟨n, f⟩ := pointerBuilder.run calls
  obtain ⟨pf, pn⟩ := p
  rcases n with _ | n
  all_goals cases f <;> simp [pointerBuilder, pointerNow] <;> grind

theorem contentKey_build (calls : List (Option (ContentKeyCall))) (k : ContentKey) :
    contentKeyBuilder.build calls = .ok k ↔
      some k.hash = givenPart ContentKeyCall.hash? calls ∧ some k.kind = givenPart ContentKeyCall.kind? calls ∧
        some k.content = givenPart ContentKeyCall.content? calls ∧ some k.commit = givenPart ContentKeyCall.commit? calls := by
  have h0 := field_part contentKeyBuilder (·.hash) ContentKeyCall.hash? (by intro k s; cases k <;> rfl) rfl calls
  have h1 := field_part contentKeyBuilder (·.kind) ContentKeyCall.kind? (by intro k s; cases k <;> rfl) rfl calls
  have h2 := field_part contentKeyBuilder (·.content) ContentKeyCall.content? (by intro k s; cases k <;> rfl) rfl calls
  have h3 := field_part contentKeyBuilder (·.commit) ContentKeyCall.commit? (by intro k s; cases k <;> rfl) rfl calls
  unfold Builder.build
  rw [← h0, ← h1, ← h2, ← h3]
  obtain ⟨h, n, p, c⟩ := contentKeyBuilder.run calls
  obtain ⟨kh, kn, kp, kc⟩ := k
  cases h <;> cases n <;> cases p <;> cases c <;> simp [contentKeyBuilder] <;> grind

theorem commit_build (S : Sha) (mv : UInt8) (calls : List (Option (CommitCall))) (c : Commit) :
    (commitBuilder S mv).build calls = .ok c ↔
      ∃ v t, givenPart CommitCall.values? calls = some v ∧ givenPart CommitCall.createdOn? calls = some t ∧
        c = commitNow S mv v t (givenPart CommitCall.parent? calls) (givenPart CommitCall.proof? calls) := by
  have h0 := field_part (commitBuilder S mv) (·.values) CommitCall.values? (by intro k s; cases k <;> rfl) rfl calls
  have h1 := field_part (commitBuilder S mv) (·.parent) CommitCall.parent? (by intro k s; cases k <;> rfl) rfl calls
  have h2 := field_part (commitBuilder S mv) (·.proof) CommitCall.proof? (by intro k s; cases k <;> rfl) rfl calls
  have h3 := field_part (commitBuilder S mv) (·.createdOn) CommitCall.createdOn? (by intro k s; cases k <;> rfl) rfl calls
  unfold Builder.build
  rw [← h0, ← h1, ← h2, ← h3]
  obtain ⟨v, p, q, t⟩ := (commitBuilder S mv).run calls
  cases v <;> cases t <;> simp [commitBuilder] <;> grind

theorem reference_build (calls : List (Option (ReferenceCall))) (r : Reference) :
    referenceBuilder.build calls = .ok r ↔
      some r.contentKeys = givenPart ReferenceCall.contentKeys? calls ∧ some r.commits = givenPart ReferenceCall.commits? calls := by
  have h0 := field_part referenceBuilder (·.contentKeys) ReferenceCall.contentKeys? (by intro k s; cases k <;> rfl) rfl calls
  have h1 := field_part referenceBuilder (·.commits) ReferenceCall.commits? (by intro k s; cases k <;> rfl) rfl calls
  unfold Builder.build
  rw [← h0, ← h1]
  obtain ⟨k, c⟩ := referenceBuilder.run calls
  obtain ⟨rk, rc⟩ := r
  cases k <;> cases c <;> simp [referenceBuilder] <;> grind

theorem content_build (calls : List (Option (ContentCall))) (c : Content) :
    contentBuilder.build calls = .ok c ↔
      some c.hash = givenPart ContentCall.hash? calls ∧ some c.kind = givenPart ContentCall.kind? calls ∧
        some c.data = givenPart ContentCall.data? calls ∧ c.data ≠ [] := by
  have h0 := field_part contentBuilder (·.hash) ContentCall.hash? (by intro k s; cases k <;> rfl) rfl calls
  have h1 := field_part contentBuilder (·.data) ContentCall.data? (by intro k s; cases k <;> rfl) rfl calls
  have h2 := field_part contentBuilder (·.kind) ContentCall.kind? (by intro k s; cases k <;> rfl) rfl calls
  unfold Builder.build
  rw [← h0, ← h1, ← h2]
  obtain ⟨h, d, k⟩ := contentBuilder.run calls
  obtain ⟨ch, cd, ck⟩ := c
  cases h <;> rcases d with _ | ⟨_ | ⟨x, xs⟩⟩ <;> cases k <;> simp [contentBuilder, contentNow] <;> grind

theorem contentKeys_build (calls : List (Option (Option (List ContentKey)))) (k : ContentKeys) :
    contentKeysBuilder.build calls = .ok k ↔
      k.list ≠ [] ∧ some k.list = givenPart some calls ∧ k.mp = GoMap.ofList (fun x => Hash.toString x.hash) k.list := by
  have h := field_part contentKeysBuilder id some (fun _ _ => rfl) rfl calls
  unfold Builder.build
  generalize contentKeysBuilder.run calls = s at *
  rw [← h]
  obtain ⟨m, l⟩ := k
  rcases s with _ | _ | ⟨a, s⟩ <;> simp [contentKeysBuilder, contentKeysNow]
  · intro h1 h2; exact absurd h2 h1
  constructor
  · rintro ⟨rfl, rfl⟩; exact ⟨by simp, rfl, rfl⟩
  · rintro ⟨_, rfl, rfl⟩; exact ⟨rfl, rfl⟩

theorem commits_build (calls : List (Option (Option (List Commit)))) (k : Commits) :
    commitsBuilder.build calls = .ok k ↔
      k.list ≠ [] ∧ some k.list = givenPart some calls ∧ k.mp = GoMap.ofList (fun x => Hash.toString x.hash) k.list := by
  have h := field_part commitsBuilder id some (fun _ _ => rfl) rfl calls
  unfold Builder.build
  generalize commitsBuilder.run calls = s at *
  rw [← h]
  obtain ⟨m, l⟩ := k
  rcases s with _ | _ | ⟨a, s⟩ <;> simp [commitsBuilder, commitsNow]
  · intro h1 h2; exact absurd h2 h1
  constructor
  · rintro ⟨rfl, rfl⟩; exact ⟨by simp, rfl, rfl⟩
  · rintro ⟨_, rfl, rfl⟩; exact ⟨rfl, rfl⟩

/-- The commit built, part by part. -/
theorem commit_build_parts (S : Sha) (mv : UInt8) (calls : List (Option CommitCall)) (c : Commit) :
    (commitBuilder S mv).build calls = .ok c ↔
      some c.values = givenPart CommitCall.values? calls ∧ some c.createdOn = givenPart CommitCall.createdOn? calls ∧
      c.parent = givenPart CommitCall.parent? calls ∧ c.mine.map Mine.proof = givenPart CommitCall.proof? calls ∧
      c.hash = Hash.fromBytes S (c.values.head ++ decInt c.createdOn ++ c.parent.getD [] ++
        ((givenPart CommitCall.proof? calls).map bigBytes).getD []) ∧
      ∀ m, c.mine = some m → m.result = Hash.fromBytes S (c.hash ++ bigBytes m.proof) ∧
        m.score = (m.result.takeWhile (· == mv)).length := by
  have hsc : ∀ l : Bytes, scoreOf mv l = (l.takeWhile (· == mv)).length := by
    intro l
    induction l with
    | nil => rfl
    | cons b l ih =>
      unfold scoreOf
      rw [List.takeWhile_cons]
      by_cases hb : b = mv <;> simp [hb, ih]
  rw [commit_build]
  generalize givenPart CommitCall.proof? calls = q
  generalize givenPart CommitCall.parent? calls = p
  constructor
  · rintro ⟨v, t, h1, h2, rfl⟩
    rw [h1, h2]
    refine ⟨rfl, rfl, rfl, ?_, ?_, ?_⟩
    · cases q <;> rfl
    · cases p <;> cases q <;> simp [commitNow, commitHash, Hash.fromMultiBytes_eq]
    · intro m hm
      cases q with
      | none => cases hm
      | some q =>
        injection hm with hm
        subst hm
        exact ⟨by simp [commitNow, Hash.fromMultiBytes_eq], hsc _⟩
  · rintro ⟨h1, h2, h3, h4, h5, h6⟩
    refine ⟨c.values, c.createdOn, h1.symm, h2.symm, ?_⟩
    obtain ⟨ch, cv, ct, cp, cm⟩ := c
    simp only at h3 h4 h5 h6 ⊢
    subst h3
    have hh : commitHash S cv.head ct cp q = ch := by
      rw [h5]
      cases cp <;> cases q <;> simp [commitHash, Hash.fromMultiBytes_eq]
    unfold commitNow
    rw [hh]
    congr 1
    cases cm with
    | none => cases q with
      | none => rfl
      | some q => cases h4
    | some m =>
      simp only [Option.map_some] at h4
      subst h4
      obtain ⟨r1, r2⟩ := h6 m rfl
      obtain ⟨mr, mp, ms⟩ := m
      simp only at r1 r2
      simp only [Option.map_some, Option.some.injEq, Mine.mk.injEq, true_and]
      rw [hsc, Hash.fromMultiBytes_eq]
      simp only [List.flatten_cons, List.flatten_nil, List.append_nil]
      rw [← r1]
      exact ⟨rfl, r2⟩

/-! ### What can be built -/

theorem leafBuilt_sized {l : Leaf} (h : LeafBuilt l) : l.Sized := by
  induction h with
  | mk l calls hb hh hp h1 h2 ih1 ih2 =>
    obtain ⟨g1, g2⟩ := (leaf_build calls l).mp hb
    obtain ⟨k, hk, e⟩ := givenPart_mem _ _ _ g1.symm
    have hl : l.head.length = 64 := by
      cases k with
      | withHead x => simp only [LeafCall.head?, Option.some.injEq] at e; rw [← e]; exact hh _ hk
      | withParent x => cases e
    cases l with
    | base h => exact hl
    | node h a b =>
      obtain ⟨k, hk, e⟩ := givenPart_mem _ _ _ g2.symm
      cases k with
      | withHead x => cases e
      | withParent x =>
        simp only [LeafCall.parent?, Option.some.injEq] at e
        subst e
        exact ⟨hl, ih1 _ hk, ih2 _ hk⟩

theorem parentBuilt (p : Leaf × Leaf) : ∃ calls, parentLeafBuilder.build calls = .ok p :=
  ⟨[some (.withLeft (some p.1)), some (.withRight (some p.2))], (parentLeaf_build _ p).mpr ⟨rfl, rfl⟩⟩

theorem leafBuilt_of_sized (l : Leaf) (h : l.Sized) : LeafBuilt l := by
  induction l with
  | base x =>
    refine .mk _ [some (.withHead x)] ((leaf_build _ _).mpr ⟨rfl, rfl⟩) ?_ ?_ ?_ ?_
    · intro y hy; simp at hy; subst hy; exact h
    all_goals intro p hp; simp at hp
  | node x a b iha ihb =>
    refine .mk _ [some (.withHead x), some (.withParent (some (a, b)))] ((leaf_build _ _).mpr ⟨rfl, rfl⟩) ?_ ?_ ?_ ?_
    · intro y hy; simp at hy; subst hy; exact h.1
    · intro p _; exact parentBuilt p
    · intro p hp; simp at hp; subst hp; exact iha h.2.1
    · intro p hp; simp at hp; subst hp; exact ihb h.2.2

theorem leafBuilt_iff {l : Leaf} : LeafBuilt l ↔ l.Sized := ⟨leafBuilt_sized, leafBuilt_of_sized l⟩

theorem treeBuilt_iff {S : Sha} {t : Tree} : TreeBuilt S t ↔ t.Sized := by
  constructor
  · rintro ⟨calls, hb, hh, hp⟩
    rcases (tree_build S calls t).mp hb with ⟨h, p, g1, g2, rfl⟩ | ⟨_, hb⟩
    · obtain ⟨k, hk, e⟩ := givenPart_mem _ _ _ g1
      obtain ⟨k', hk', e'⟩ := givenPart_mem _ _ _ g2
      have hl : h.length = 64 := by
        cases k with
        | withHead x => simp only [TreeCall.head?, Option.some.injEq] at e; rw [← e]; exact hh _ hk
        | withParent x => cases e
        | withBlocks x => cases e
      cases k' with
      | withHead x => cases e'
      | withBlocks x => cases e'
      | withParent x =>
        simp only [TreeCall.parent?, Option.some.injEq] at e'
        subst e'
        obtain ⟨_, p1, p2⟩ := hp _ hk'
        exact ⟨hl, leafBuilt_sized p1, leafBuilt_sized p2⟩
    · cases hg : givenPart TreeCall.blocks? calls with
      | none => rw [hg] at hb; cases hb
      | some bs => rw [hg] at hb; exact Props.build_sized S bs t hb
  · intro h
    refine ⟨[some (.withHead t.head), some (.withParent (some (t.left, t.right)))],
      (tree_build S _ t).mpr (.inl ⟨t.head, (t.left, t.right), rfl, rfl, rfl⟩), ?_, ?_⟩
    · intro x hx; simp at hx; subst hx; exact h.1
    · intro p hp
      simp at hp
      subst hp
      exact ⟨parentBuilt _, leafBuilt_of_sized _ h.2.1, leafBuilt_of_sized _ h.2.2⟩

theorem compactBuilt_iff {c : Compact} : CompactBuilt c ↔ c.head.length = 64 ∧ c.leaves ≠ [] ∧ ∀ l ∈ c.leaves, l.Sized := by
  constructor
  · rintro ⟨calls, hb, hh, hl⟩
    obtain ⟨g1, g2⟩ := (compact_build calls c).mp hb
    obtain ⟨k, hk, e⟩ := givenPart_mem _ _ _ g1.symm
    obtain ⟨k', hk', e'⟩ := givenPart_mem _ _ _ g2.symm
    cases k <;> simp only [CompactCall.head?, Option.some.injEq, reduceCtorEq] at e
    cases k' <;> simp only [CompactCall.leaves?, Option.some.injEq, reduceCtorEq] at e'
    subst e e'
    obtain ⟨h1, h2⟩ := hl _ hk'
    exact ⟨hh _ hk, listBuilt_iff.mp h1, fun x hx => leafBuilt_sized (h2 x hx)⟩
  · rintro ⟨h1, h2, h3⟩
    refine ⟨[some (.withHead c.head), some (.withLeaves (some c.leaves))], (compact_build _ c).mpr ⟨rfl, rfl⟩, ?_, ?_⟩
    · intro x hx; simp at hx; subst hx; exact h1
    · intro l hl; simp at hl; subst hl
      exact ⟨listBuilt_iff.mpr h2, fun x hx => leafBuilt_of_sized x (h3 x hx)⟩

theorem pointerBuilt_iff {p : Pointer} : PointerBuilt p ↔ p.WF := by
  constructor
  · rintro ⟨calls, hb, hn, hf⟩
    obtain ⟨g1, g2, g3⟩ := (pointer_build calls p).mp hb
    obtain ⟨k, hk, e⟩ := givenPart_mem _ _ _ g1.symm
    cases k <;> simp only [PointerCall.from_?, Option.some.injEq, reduceCtorEq] at e
    subst e
    refine ⟨hf _ hk, ?_, g3⟩
    cases hg : given PointerCall.length? calls with
    | none => rw [hg] at g2; simp at g2; omega
    | some n =>
      obtain ⟨k', hk', e'⟩ := given_mem _ _ _ hg
      rw [hg] at g2
      cases k' <;> simp only [PointerCall.length?, Option.some.injEq, reduceCtorEq] at e'
      rw [g2, ← e']
      exact hn _ hk'
  · rintro ⟨h1, h2, h3⟩
    refine ⟨[some (.from p.from'), some (.withLength p.length)], (pointer_build _ p).mpr ⟨rfl, rfl, h3⟩, ?_, ?_⟩
    · intro x hx; simp at hx; subst hx; exact h2
    · intro x hx; simp at hx; subst hx; exact h1

theorem contentKeyBuilt_iff {k : ContentKey} : ContentKeyBuilt k ↔ k.WF := by
  constructor
  · rintro ⟨calls, hb, hh, hn, hp, hc⟩
    obtain ⟨g1, g2, g3, g4⟩ := (contentKey_build calls k).mp hb
    obtain ⟨k1, hk1, e1⟩ := givenPart_mem _ _ _ g1.symm
    obtain ⟨k2, hk2, e2⟩ := givenPart_mem _ _ _ g2.symm
    obtain ⟨k3, hk3, e3⟩ := givenPart_mem _ _ _ g3.symm
    obtain ⟨k4, hk4, e4⟩ := givenPart_mem _ _ _ g4.symm
    cases k1 <;> simp only [ContentKeyCall.hash?, Option.some.injEq, reduceCtorEq] at e1
    cases k2 <;> simp only [ContentKeyCall.kind?, Option.some.injEq, reduceCtorEq] at e2
    cases k3 <;> simp only [ContentKeyCall.content?, Option.some.injEq, reduceCtorEq] at e3
    cases k4 <;> simp only [ContentKeyCall.commit?, Option.some.injEq, reduceCtorEq] at e4
    subst e1 e2 e3 e4
    exact ⟨hh _ hk1, hn _ hk2, pointerBuilt_iff.mp (hp _ hk3), hc _ hk4⟩
  · rintro ⟨h1, h2, h3, h4⟩
    refine ⟨[some (.withHash k.hash), some (.withKind k.kind), some (.withContent (some k.content)), some (.withCommit k.commit)],
      (contentKey_build _ k).mpr ⟨rfl, rfl, rfl, rfl⟩, ?_, ?_, ?_, ?_⟩
    · intro x hx; simp at hx; subst hx; exact h1
    · intro x hx; simp at hx; subst hx; exact h2
    · intro x hx; simp at hx; subst hx; exact pointerBuilt_iff.mpr h3
    · intro x hx; simp at hx; subst hx; exact h4

theorem contentKeysBuilt_iff {k : ContentKeys} :
    ContentKeysBuilt k ↔ contentKeysNow k.list = .ok k ∧ ∀ x ∈ k.list, x.WF := by
  constructor
  · rintro ⟨calls, hb, hl⟩
    obtain ⟨g1, g2, g3⟩ := (contentKeys_build calls k).mp hb
    obtain ⟨c, hc, e⟩ := givenPart_mem _ _ _ g2.symm
    simp only [Option.some.injEq] at e
    subst e
    refine ⟨?_, fun x hx => contentKeyBuilt_iff.mp (hl _ hc x hx)⟩
    obtain ⟨m, l⟩ := k
    simp only at g1 g3 ⊢
    rw [g3]
    cases l with
    | nil => exact absurd rfl g1
    | cons a l => rfl
  · rintro ⟨h1, h2⟩
    refine ⟨[some (some k.list)], h1, ?_⟩
    intro l hl; simp at hl; subst hl
    exact fun x hx => contentKeyBuilt_iff.mpr (h2 x hx)

/-- A commit that can be built: all that `Commit.WF` says, except that its content is small. -/
structure CommitOK (S : Sha) (mv : UInt8) (c : Commit) : Prop where
  built : c = commitNow S mv c.values c.createdOn c.parent (c.mine.map Mine.proof)
  sized : c.values.Sized
  timeLo : -2 ^ 63 ≤ c.createdOn
  timeHi : c.createdOn < 2 ^ 63
  parent : ∀ p, c.parent = some p → p.length = 64
  proof : ∀ m, c.mine = some m → 0 ≤ m.proof

theorem CommitOK.wf {S : Sha} {mv : UInt8} {c : Commit} (h : CommitOK S mv c) (hs : (commitToContent c).length < 2 ^ 63) :
    c.WF S mv := ⟨h.built, h.sized, h.timeLo, h.timeHi, h.parent, h.proof, hs⟩

theorem commitNow_ok {S : Sha} {mv : UInt8} {v : HashTree.Tree} {t : Int} {p : Option Bytes} {q : Option Int} (hv : v.Sized)
    (h1 : -2 ^ 63 ≤ t) (h2 : t < 2 ^ 63) (hp : ∀ x, p = some x → x.length = 64) (hq : ∀ x, q = some x → 0 ≤ x) :
    CommitOK S mv (commitNow S mv v t p q) := by
  refine ⟨?_, hv, h1, h2, hp, ?_⟩
  · cases q <;> rfl
  · cases q with
    | none => intro m hm; simp [commitNow] at hm
    | some q =>
      intro m hm
      simp only [commitNow, Option.map_some, Option.some.injEq] at hm
      rw [← hm]
      exact hq q rfl

theorem commitBuilt_iff {S : Sha} {mv : UInt8} {c : Commit} : CommitBuilt S mv c ↔ CommitOK S mv c := by
  constructor
  · rintro ⟨calls, hb, hv, hp, hq, ht⟩
    obtain ⟨v, t, g1, g2, rfl⟩ := (commit_build S mv calls c).mp hb
    obtain ⟨k1, hk1, e1⟩ := givenPart_mem _ _ _ g1
    obtain ⟨k2, hk2, e2⟩ := givenPart_mem _ _ _ g2
    cases k1 <;> simp only [CommitCall.values?, Option.some.injEq, reduceCtorEq] at e1
    cases k2 <;> simp only [CommitCall.createdOn?, Option.some.injEq, reduceCtorEq] at e2
    subst e1 e2
    obtain ⟨t1, t2⟩ := ht _ hk2
    refine commitNow_ok (treeBuilt_iff.mp (hv _ hk1)) t1 t2 ?_ ?_
    · intro x hx
      obtain ⟨k, hk, e⟩ := givenPart_mem _ _ _ hx
      cases k <;> simp only [CommitCall.parent?, Option.some.injEq, reduceCtorEq] at e
      subst e
      exact hp _ hk
    · intro x hx
      obtain ⟨k, hk, e⟩ := givenPart_mem _ _ _ hx
      cases k <;> simp only [CommitCall.proof?, Option.some.injEq, reduceCtorEq] at e
      subst e
      exact hq _ hk
  · intro h
    have key : ∀ (p : Option Bytes) (q : Option Int), c.parent = p → c.mine.map Mine.proof = q → CommitBuilt S mv c := by
      intro p q hp hq
      have hb := h.built
      rw [hp, hq] at hb
      refine ⟨[some (.withValues (some c.values)), some (.createdOn c.createdOn), some (.withProof q)] ++
        (match p with | some p => [some (.withParent p)] | none => []), (commit_build S mv _ c).mpr ⟨c.values, c.createdOn, ?_, ?_, ?_⟩,
        ?_, ?_, ?_, ?_⟩
      · cases p <;> rfl
      · cases p <;> rfl
      · cases p <;> cases q <;> exact hb
      · intro t ht; cases p <;> simp at ht <;> subst ht <;> exact treeBuilt_iff.mpr h.sized
      · intro x hx
        cases p with
        | none => simp at hx
        | some p => simp at hx; subst hx; exact h.parent _ hp
      · intro x hx
        have hx : q = some x := by cases p <;> simpa [eq_comm] using hx
        subst hx
        cases hm : c.mine with
        | none => rw [hm] at hq; cases hq
        | some m =>
          rw [hm] at hq
          simp only [Option.map_some, Option.some.injEq] at hq
          subst hq
          exact h.proof m hm
      · intro t ht; cases p <;> simp at ht <;> subst ht <;> exact ⟨h.timeLo, h.timeHi⟩
    exact key _ _ rfl rfl

theorem commitsBuilt_iff {S : Sha} {mv : UInt8} {k : Commits} :
    CommitsBuilt S mv k ↔ commitsNow k.list = .ok k ∧ ∀ x ∈ k.list, CommitOK S mv x := by
  constructor
  · rintro ⟨calls, hb, hl⟩
    obtain ⟨g1, g2, g3⟩ := (commits_build calls k).mp hb
    obtain ⟨c, hc, e⟩ := givenPart_mem _ _ _ g2.symm
    simp only [Option.some.injEq] at e
    subst e
    refine ⟨?_, fun x hx => commitBuilt_iff.mp (hl _ hc x hx)⟩
    obtain ⟨m, l⟩ := k
    simp only at g1 g3 ⊢
    rw [g3]
    cases l with
    | nil => exact absurd rfl g1
    | cons a l => rfl
  · rintro ⟨h1, h2⟩
    refine ⟨[some (some k.list)], h1, ?_⟩
    intro l hl; simp at hl; subst hl
    exact fun x hx => commitBuilt_iff.mpr (h2 x hx)

theorem referenceBuilt_iff {S : Sha} {mv : UInt8} {r : Reference} :
    ReferenceBuilt S mv r ↔ ContentKeysBuilt r.contentKeys ∧ CommitsBuilt S mv r.commits := by
  constructor
  · rintro ⟨calls, hb, hk, hc⟩
    obtain ⟨g1, g2⟩ := (reference_build calls r).mp hb
    obtain ⟨k1, hk1, e1⟩ := givenPart_mem _ _ _ g1.symm
    obtain ⟨k2, hk2, e2⟩ := givenPart_mem _ _ _ g2.symm
    cases k1 <;> simp only [ReferenceCall.contentKeys?, Option.some.injEq, reduceCtorEq] at e1
    cases k2 <;> simp only [ReferenceCall.commits?, Option.some.injEq, reduceCtorEq] at e2
    subst e1 e2
    exact ⟨hk _ hk1, hc _ hk2⟩
  · rintro ⟨h1, h2⟩
    refine ⟨[some (.withContentKeys (some r.contentKeys)), some (.withCommits (some r.commits))],
      (reference_build _ r).mpr ⟨rfl, rfl⟩, ?_, ?_⟩
    · intro x hx; simp at hx; subst hx; exact h1
    · intro x hx; simp at hx; subst hx; exact h2

theorem contentBuilt_iff {c : Content} : ContentBuilt c ↔ c.WF := by
  constructor
  · rintro ⟨calls, hb, hh, hn⟩
    obtain ⟨g1, g2, _, g4⟩ := (content_build calls c).mp hb
    obtain ⟨k1, hk1, e1⟩ := givenPart_mem _ _ _ g1.symm
    obtain ⟨k2, hk2, e2⟩ := givenPart_mem _ _ _ g2.symm
    cases k1 <;> simp only [ContentCall.hash?, Option.some.injEq, reduceCtorEq] at e1
    cases k2 <;> simp only [ContentCall.kind?, Option.some.injEq, reduceCtorEq] at e2
    subst e1 e2
    exact ⟨hh _ hk1, g4, hn _ hk2⟩
  · rintro ⟨h1, h2, h3⟩
    refine ⟨[some (.withHash c.hash), some (.withData (some c.data)), some (.withKind c.kind)],
      (content_build _ c).mpr ⟨rfl, rfl, rfl, h2⟩, ?_, ?_⟩
    · intro x hx; simp at hx; subst hx; exact h1
    · intro x hx; simp at hx; subst hx; exact h3

theorem contentsBuilt_iff {l : List Content} : ContentsBuilt l ↔ l ≠ [] ∧ ∀ x ∈ l, x.WF := by
  constructor
  · rintro ⟨calls, hb, hl⟩
    obtain ⟨g1, g2⟩ := (list_build calls l).mp hb
    obtain ⟨c, hc, e⟩ := givenPart_mem _ _ _ g2.symm
    simp only [Option.some.injEq] at e
    subst e
    exact ⟨g1, fun x hx => contentBuilt_iff.mp (hl _ hc x hx)⟩
  · rintro ⟨h1, h2⟩
    refine ⟨[some (some l)], (list_build _ l).mpr ⟨h1, rfl⟩, ?_⟩
    intro l' hl; simp at hl; subst hl
    exact fun x hx => contentBuilt_iff.mpr (h2 x hx)

/-! ### What is read can be built -/

theorem sub_length {s t : Slice} {a b : Nat} (h : s.sub a b = .ok t) : t.vis.length = b - a := by
  obtain ⟨h1, h2, h3, _⟩ := Slice.sub_ok h
  rw [h3]
  simp only [Slice.cap, Slice.len] at h2
  simp
  omega

theorem leNat_sub {s t : Slice} {a b : Nat} (h : s.sub a b = .ok t) (hb : b - a = 8) : leNat t.vis < 2 ^ 64 := by
  have h1 := leNat_lt t.vis
  rw [sub_length h, hb] at h1
  exact h1

theorem toPointer_wf {c : Slice} {p : Pointer} (h : toPointer c = .ok p) : p.WF := by
  unfold toPointer at h
  split at h
  · cases h
  rename_i hl
  simp only [Res.bind_eq_ok] at h
  obtain ⟨a, ha, b, hb, h⟩ := h
  have h1 := leNat_sub ha (by omega)
  obtain ⟨f1, f2, _⟩ := Slice.from_ok hb
  have h2 := leNat_lt b.vis
  rw [f2] at h2
  have hl' : c.vis.length = 16 := by simpa [Slice.len, pointerSize] using hl
  rw [List.length_drop, hl'] at h2
  unfold pointerNow at h
  split at h
  · cases h
  rename_i f hf
  injection hf with hf
  split at h
  · cases h
  rename_i hz
  injection h with h
  subst h hf
  rw [f2] at hz ⊢
  exact ⟨h1, h2, Nat.lt_of_not_le hz⟩

theorem toContentKey_wf {S : Sha} {c : Slice} {k : ContentKey} (h : toContentKey S c = .ok k) : k.WF := by
  unfold toContentKey at h
  split at h
  · cases h
  simp only [Res.bind_eq_ok, Res.pure_eq] at h
  obtain ⟨a, ha, b, hb, d, hd, p, hp, m, hm, h⟩ := h
  injection h with h
  subst h
  exact ⟨Hash.fromBytes_length _ _, leNat_sub hb (by omega), toPointer_wf hp, Hash.fromBytes_length _ _⟩

theorem contentKeysLoop_wf {S : Sha} {c : Slice} {n i : Nat} {l : List ContentKey} (h : contentKeysLoop S c n i = .ok l) :
    ∀ x ∈ l, x.WF := by
  induction n generalizing i l with
  | zero => injection h with h; subst h; simp
  | succ n ih =>
    simp only [contentKeysLoop, Res.bind_eq_ok, Res.pure_eq] at h
    obtain ⟨s, _, x, hx, r, hr, h⟩ := h
    injection h with h
    subst h
    intro y hy
    rcases List.mem_cons.mp hy with rfl | hy
    · exact toContentKey_wf hx
    · exact ih hr y hy

theorem contentKeysNow_list {L : List ContentKey} {k : ContentKeys} (h : contentKeysNow L = .ok k) : contentKeysNow k.list = .ok k ∧ k.list = L := by
  obtain ⟨_, rfl⟩ := contentKeysNow_ok h
  exact ⟨h, rfl⟩

theorem commitsNow_list {L : List Commit} {k : Commits} (h : commitsNow L = .ok k) : commitsNow k.list = .ok k ∧ k.list = L := by
  obtain ⟨_, rfl⟩ := commitsNow_ok h
  exact ⟨h, rfl⟩

theorem toContentKeys_built {S : Sha} {c : Slice} {k : ContentKeys} (h : toContentKeys S c = .ok k) : ContentKeysBuilt k := by
  unfold toContentKeys at h
  by_cases hc : c.len < 8 + contentKeySize
  · rw [if_pos hc] at h; cases h
  rw [if_neg hc] at h
  simp only [Res.bind_eq_ok] at h
  obtain ⟨a, ha, h⟩ := h
  split at h
  · obtain ⟨l, hl, h⟩ := Res.bind_eq_ok.mp h
    obtain ⟨h1, h2⟩ := contentKeysNow_list h
    refine contentKeysBuilt_iff.mpr ⟨h1, ?_⟩
    rw [h2]
    exact contentKeysLoop_wf hl
  · cases h

theorem ofU64_range {n : Nat} (h : n < 2 ^ 64) : -2 ^ 63 ≤ ofU64 n ∧ ofU64 n < 2 ^ 63 := by
  unfold ofU64
  split <;> constructor <;> omega

theorem readProof_nonneg {s : Slice} {r : Option Int × Slice} (h : readProof s = .ok r) : ∀ q, r.1 = some q → 0 ≤ q := by
  unfold readProof at h
  split at h
  · simp only [Res.bind_eq_ok] at h
    obtain ⟨a, _, h⟩ := h
    split at h
    · simp only [Res.bind_eq_ok, Res.pure_eq] at h
      obtain ⟨b, _, d, _, e, _, f, _, h⟩ := h
      injection h with h
      subst h
      intro q hq
      injection hq with hq
      subst hq
      exact Int.natCast_nonneg _
    · injection h with h; subst h; intro q hq; cases hq
  · injection h with h; subst h; intro q hq; cases hq

theorem readParent_hash {S : Sha} {s : Slice} {r : Option Bytes} (h : readParent S s = .ok r) : ∀ p, r = some p → p.length = 64 := by
  unfold readParent at h
  split at h
  · simp only [Res.bind_eq_ok, Res.pure_eq] at h
    obtain ⟨a, _, h⟩ := h
    injection h with h
    subst h
    intro p hp
    injection hp with hp
    subst hp
    exact Hash.fromBytes_length _ _
  · injection h with h; subst h; intro q hq; cases hq

theorem toCommit_okay {S : Sha} {mv : UInt8} {c : Slice} {k : Commit} (h : toCommit S mv c = .ok k) : CommitOK S mv k := by
  unfold toCommit at h
  split at h
  · cases h
  simp only [Res.bind_eq_ok, Res.pure_eq] at h
  obtain ⟨t, ht, l, _, v, _, values, hv, rem, _, pr, hpr, parent, hp, h⟩ := h
  injection h with h
  subst h
  obtain ⟨t1, t2⟩ := ofU64_range (leNat_sub ht (by omega))
  exact commitNow_ok (HashTree.toHashTree_exact _ _ _ hv).2 t1 t2 (readParent_hash hp) (readProof_nonneg hpr)

theorem commitsLoop_okay {S : Sha} {mv : UInt8} {c : Slice} {i : Nat} {l : List Commit} (h : commitsLoop S mv c i = .ok l) :
    ∀ x ∈ l, CommitOK S mv x := by
  induction hn : c.len - i using Nat.strongRecOn generalizing i l with
  | ind n ih =>
    unfold commitsLoop at h
    split at h
    · cases h
    rename_i h1
    split at h
    · injection h with h; subst h; simp
    rename_i h2
    simp only [Res.bind_eq_ok, Res.pure_eq] at h
    obtain ⟨a, _, s, _, x, hx, r, hr, h⟩ := h
    injection h with h
    subst h
    intro y hy
    rcases List.mem_cons.mp hy with rfl | hy
    · exact toCommit_okay hx
    · exact ih _ (by omega) hr rfl y hy

theorem toCommits_built {S : Sha} {mv : UInt8} {c : Slice} {k : Commits} (h : toCommits S mv c = .ok k) : CommitsBuilt S mv k := by
  unfold toCommits at h
  split at h
  · cases h
  simp only [Res.bind_eq_ok] at h
  obtain ⟨l, hl, h⟩ := h
  obtain ⟨h1, h2⟩ := commitsNow_list h
  refine commitsBuilt_iff.mpr ⟨h1, ?_⟩
  rw [h2]
  exact commitsLoop_okay hl

theorem toReference_built {S : Sha} {mv : UInt8} {c : Slice} {r : Reference} (h : toReference S mv c = .ok r) : ReferenceBuilt S mv r := by
  unfold toReference at h
  split at h
  · cases h
  simp only [Res.bind_eq_ok, Res.pure_eq] at h
  obtain ⟨a, _, k, hk, m, _, cs, hc, h⟩ := h
  injection h with h
  subst h
  exact referenceBuilt_iff.mpr ⟨toContentKeys_built hk, toCommits_built hc⟩

theorem toContentInstance_wf {S : Sha} {c : Slice} {k : Content} (h : toContentInstance S c = .ok k) : k.WF := by
  unfold toContentInstance at h
  split at h
  · cases h
  simp only [Res.bind_eq_ok] at h
  obtain ⟨a, ha, b, hb, d, hd, h⟩ := h
  unfold contentNow at h
  split at h
  · cases h
  rename_i hne
  injection h with h
  subst h
  exact ⟨Hash.fromBytes_length _ _, by intro e; simp only at e; simp [e] at hne, leNat_sub hb (by omega)⟩

theorem contentsLoop_wf {S : Sha} {c : Slice} {l : List Content} (h : contentsLoop S c = .ok l) : ∀ x ∈ l, x.WF := by
  fun_induction contentsLoop S c generalizing l with
  | case1 => injection h with h; subst h; simp
  | case2 c _ a ha s hs x hx rem hrem rest hrest ih =>
    injection h with h
    subst h
    intro y hy
    rcases List.mem_cons.mp hy with rfl | hy
    · exact toContentInstance_wf hx
    · exact ih hrest y hy
  | _ => cases h

theorem toContents_built {S : Sha} {c : Slice} {l : List Content} (h : toContentsInstance S c = .ok l) : ContentsBuilt l := by
  unfold toContentsInstance at h
  split at h
  · cases h
  simp only [Res.bind_eq_ok] at h
  obtain ⟨a, ha, h⟩ := h
  split at h
  · cases h
  rename_i hne
  injection h with h
  subst h
  exact contentsBuilt_iff.mpr ⟨by intro e; simp [e] at hne, contentsLoop_wf ha⟩

theorem leavesLoop_sized {S : Sha} {c : Slice} {n i : Nat} {l : List Leaf} (h : HashTree.leavesLoop S c n i = .ok l) :
    ∀ x ∈ l, x.Sized := by
  induction n generalizing i l with
  | zero => injection h with h; subst h; simp
  | succ n ih =>
    simp only [HashTree.leavesLoop, Res.bind_eq_ok, Res.pure_eq] at h
    obtain ⟨a, _, s, _, x, hx, r, hr, h⟩ := h
    injection h with h
    subst h
    intro y hy
    rcases List.mem_cons.mp hy with rfl | hy
    · exact ((HashTree.decode_exact S _).1 s _ (Nat.le_refl _) hx).2
    · exact ih hr y hy

theorem contentToCompact_built {S : Sha} {c : Slice} {k : Compact} (h : HashTree.contentToCompact S c = .ok k) : CompactBuilt k := by
  unfold HashTree.contentToCompact at h
  split at h
  · cases h
  simp only [Res.bind_eq_ok, Res.pure_eq] at h
  obtain ⟨a, _, b, _, l, hl, h⟩ := h
  injection h with h
  subst h
  unfold HashTree.toLeaves at hl
  by_cases hc : b.len < HashTree.minLeavesSize
  · rw [if_pos hc] at hl; cases hl
  rw [if_neg hc] at hl
  obtain ⟨n, _, hl⟩ := Res.bind_eq_ok.mp hl
  by_cases hn : leNat n.vis < 2 ^ 63
  · simp only [if_pos hn] at hl
    obtain ⟨l', hl', hl⟩ := Res.bind_eq_ok.mp hl
    split at hl
    · cases hl
    rename_i hne
    injection hl with hl
    subst hl
    exact compactBuilt_iff.mpr ⟨Hash.fromBytes_length _ _, by intro e; simp only at e; simp [e] at hne, leavesLoop_sized hl'⟩
  · simp only [if_neg hn, Res.pure_eq, Res.bind_ok] at hl
    cases hl

theorem referenceBuilt_round_trip {S : Sha} {mv : UInt8} {r : Reference} (h : ReferenceBuilt S mv r)
    (hs : (referenceToContent r).length < 2 ^ 63) (tail : Bytes) : toReference S mv ⟨referenceToContent r, tail⟩ = .ok r := by
  obtain ⟨h1, h2⟩ := referenceBuilt_iff.mp h
  obtain ⟨k1, k2⟩ := contentKeysBuilt_iff.mp h1
  obtain ⟨c1, c2⟩ := commitsBuilt_iff.mp h2
  refine toReference_referenceToContent S mv r ⟨k1, c1, k2, ?_, hs⟩ tail
  intro c hc
  refine (c2 c hc).wf ?_
  have e : (commitToContent c).length ≤ (commitsToContent r.commits).length := by
    obtain ⟨a, b, e⟩ := List.append_of_mem hc
    unfold commitsToContent
    rw [e]
    simp
    omega
  simp only [referenceToContent, List.length_append] at hs
  omega

end Rodkina.DataBuildSpec
