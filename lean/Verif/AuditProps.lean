import Verif.DatabaseProps2
/-! Property theorems for the file database, C137 and C138: what the commits say about the contents and about each other. -/

namespace Rodkina
namespace DB

open Ref HashTree

theorem storedBy_groups {S : Sha} {cs : List Commit} : ∀ {ks : List ContentKey}, storedBy S cs ks →
    ∃ groups : List (List ContentKey), groups.length = cs.length ∧ ks = groups.flatten ∧
      ∀ (i : Nat) (c : Commit) (g : List ContentKey), cs[i]? = some c → groups[i]? = some g →
        g ≠ [] ∧ (∀ k ∈ g, k.commit = c.hash) ∧ HashTree.build S (some (g.map (·.hash))) = .ok c.values := by
  induction cs with
  | nil =>
    intro ks h
    have h : ks = [] := h
    subst h
    exact ⟨[], rfl, rfl, fun i c g hc _ => by simp at hc⟩
  | cons c' cs ih =>
    rintro ks ⟨own, rest, rfl, a1, a2, a3, a4⟩
    obtain ⟨groups, h1, h2, h3⟩ := ih a4
    refine ⟨own :: groups, by simp [h1], by simp [h2], ?_⟩
    intro i c g hc hg
    cases i with
    | zero =>
      simp only [List.getElem?_cons_zero, Option.some.injEq] at hc hg
      subst hc hg
      exact ⟨a1, a2, a3⟩
    | succ i =>
      simp only [List.getElem?_cons_succ] at hc hg
      exact h3 i c g hc hg

theorem commits_ctx {a : App} {id : Nat} {k : Commits} (hk : commits a id = .ok k) :
    ∃ c r, a.get id = some c ∧ c.reference = some r ∧ r.commits = k := by
  unfold commits at hk
  cases hg : a.get id with
  | none => rw [hg] at hk; cases hk
  | some c =>
    rw [hg] at hk
    cases hr : c.reference with
    | none => simp only [hr] at hk; cases hk
    | some r => simp only [hr, Res.ok.injEq] at hk; exact ⟨c, r, rfl, hr, hk⟩

/-- Two commits of the same hash, without proof: equal in everything the hash covers. -/
theorem commit_bound {S : Sha} {v1 v2 : UInt8} {a b : Commit} (h1 : a.WF S v1) (h2 : b.WF S v2) (m1 : a.mine = none)
    (m2 : b.mine = none) (h : a.hash = b.hash) (hc : ¬ ∃ x y : Bytes, x ≠ y ∧ S.f x = S.f y) :
    a.values.head = b.values.head ∧ a.createdOn = b.createdOn ∧ a.parent = b.parent := by
  have e1 := h1.built
  have e2 := h2.built
  rw [m1] at e1
  rw [m2] at e2
  have e : (commitNow S v1 a.values a.createdOn a.parent none).hash = (commitNow S v1 b.values b.createdOn b.parent none).hash := by
    have e1 : a.hash = (commitNow S v1 a.values a.createdOn a.parent none).hash := congrArg (·.hash) e1
    have e2 : b.hash = (commitNow S v1 b.values b.createdOn b.parent none).hash := congrArg (·.hash) e2
    rw [← e1, ← e2, h]
  rcases Props.C18_hash_binds_commit_partial S v1 _ _ _ _ _ _ h1.sized h2.sized h1.timeLo h1.timeHi h2.timeLo h2.timeHi h1.parent
    h2.parent e with h | h
  · exact h
  · exact absurd h hc

/-- Two chains which have a hash in common, at any places: the places are the same and so is everything up to there. -/
theorem chains_agree {S : Sha} {v1 v2 : UInt8} {L1 L2 : List Commit} (c1 : chainFrom none L1) (c2 : chainFrom none L2)
    (w1 : ∀ c ∈ L1, c.WF S v1) (w2 : ∀ c ∈ L2, c.WF S v2) (m1 : ∀ c ∈ L1, c.mine = none) (m2 : ∀ c ∈ L2, c.mine = none)
    (hc : ¬ ∃ x y : Bytes, x ≠ y ∧ S.f x = S.f y) : ∀ (i j : Nat) (a b : Commit), L1[i]? = some a → L2[j]? = some b →
    a.hash = b.hash → i = j ∧ ∀ (n : Nat) (x y : Commit), n ≤ i → L1[n]? = some x → L2[n]? = some y →
      x.hash = y.hash ∧ x.values.head = y.values.head ∧ x.createdOn = y.createdOn ∧ x.parent = y.parent := by
  have d1 := Props.chainFrom_index c1
  have d2 := Props.chainFrom_index c2
  intro i
  induction i with
  | zero =>
    intro j a b ha hb h
    have q := commit_bound (w1 a (List.mem_of_getElem? ha)) (w2 b (List.mem_of_getElem? hb)) (m1 a (List.mem_of_getElem? ha))
      (m2 b (List.mem_of_getElem? hb)) h hc
    have hj : 0 = j := by
      cases j with
      | zero => rfl
      | succ j =>
        have hlt : j < L2.length := by
          have := (List.getElem?_eq_some_iff.mp hb).1
          omega
        have := d2.2 j L2[j] b (List.getElem?_eq_getElem hlt) hb
        rw [← q.2.2, d1.1 a ha] at this
        cases this
    subst hj
    refine ⟨rfl, ?_⟩
    intro n x y hn hx hy
    have : n = 0 := by omega
    subst this
    rw [ha] at hx
    rw [hb] at hy
    cases hx
    cases hy
    exact ⟨h, q⟩
  | succ i ih =>
    intro j a b ha hb h
    have q := commit_bound (w1 a (List.mem_of_getElem? ha)) (w2 b (List.mem_of_getElem? hb)) (m1 a (List.mem_of_getElem? ha))
      (m2 b (List.mem_of_getElem? hb)) h hc
    have hlt : i < L1.length := by
      have := (List.getElem?_eq_some_iff.mp ha).1
      omega
    have hpa := d1.2 i L1[i] a (List.getElem?_eq_getElem hlt) ha
    cases j with
    | zero =>
      rw [q.2.2, d2.1 b hb] at hpa
      cases hpa
    | succ j =>
      have hlt2 : j < L2.length := by
        have := (List.getElem?_eq_some_iff.mp hb).1
        omega
      have hpb := d2.2 j L2[j] b (List.getElem?_eq_getElem hlt2) hb
      rw [← q.2.2, hpa] at hpb
      obtain ⟨r1, r2⟩ := ih j L1[i] L2[j] (List.getElem?_eq_getElem hlt) (List.getElem?_eq_getElem hlt2) (Option.some.inj hpb)
      subst r1
      refine ⟨rfl, ?_⟩
      intro n x y hn hx hy
      by_cases e : n = i + 1
      · subst e
        rw [ha] at hx
        rw [hb] at hy
        cases hx
        cases hy
        exact ⟨h, q⟩
      · exact r2 n x y (by omega) hx hy

end DB

namespace Props
open DB Ref HashTree

/-- C137: in every history, with any faults and crashes, the contents an open database lists are, in order, those of its first
commit, those of its second, and so on. Each commit stored at least one; each content names the commit which stored it; and the
values of the commit are the tree of the hashes of these contents: its leaves are these hashes, in order, followed by hashes of
the empty block only, and its head is the Merkle root of its leaves. -/
theorem C137_commits_account_for_contents (cfg : Cfg) (u : Usage) (hn : Names cfg u) (s : State) (hs : Reachable cfg u s) (id : Nat)
    (m : Commits) (k : ContentKeys) (hm : commits s.app id = .ok m) (hk : contentKeys s.app id = .ok k) :
    ∃ groups : List (List ContentKey), groups.length = m.list.length ∧ k.list = groups.flatten ∧
      ∀ (i : Nat) (c : Commit) (g : List ContentKey), m.list[i]? = some c → groups[i]? = some g →
        g ≠ [] ∧ (∀ x ∈ g, x.commit = c.hash) ∧
        ∃ d p, leafHashes c.values = g.map (·.hash) ++ List.replicate p (Hash.fromBytes cfg.S []) ∧
          (leafHashes c.values).length = 2 ^ (d + 1) ∧ 2 ^ d < max 2 g.length ∧
          c.values.head = merkleRoot cfg.S (d + 1) (leafHashes c.values) := by
  obtain ⟨c, r, hg, hr, rfl⟩ := commits_ctx hm
  obtain ⟨c', r', hg', hr', rfl⟩ := keys_ctx hk
  rw [hg] at hg'
  cases hg'
  rw [hr] at hr'
  cases hr'
  have hc : CtxOK cfg u s.fs c := (hs.inv hn).ctxs _ (get_mem hg)
  have hok := hc.holds.ref r hr
  obtain ⟨groups, h1, h2, h3⟩ := storedBy_groups hok.stored
  refine ⟨groups, h1, h2, ?_⟩
  intro i x g hx hg
  obtain ⟨q1, q2, q3⟩ := h3 i x g hx hg
  refine ⟨q1, q2, ?_⟩
  obtain ⟨t, d, p, hb, hL, hlen, hlo, _, hroot⟩ := C03_build_is_merkle cfg.S (g.map (·.hash)) (by simpa using q1)
  rw [hb] at q3
  cases q3
  refine ⟨d, p, ?_, hlen, by simpa using hlo, hroot⟩
  rw [hL, List.map_map]
  congr 1
  refine List.map_congr_left ?_
  intro y hy
  have hmem : y ∈ r.contentKeys.list := by
    rw [h2]
    exact List.mem_flatten.mpr ⟨g, List.mem_of_getElem? hg, hy⟩
  exact Hash.fromBytes_of_len (hok.wf.keys y hmem).1

/-- A history with two commits. -/
example (S : Sha) : ∃ cfg u s m k, cfg.S = S ∧ Names cfg u ∧ Reachable cfg u s ∧ commits s.app 0 = .ok m ∧
    contentKeys s.app 0 = .ok k ∧ m.list.length = 2 := by
  obtain ⟨s, c, h⟩ := sample_ready S 3 False
  obtain ⟨h1, h2, t, r, j, hu, _, ha, _⟩ := h.commit (by decide) (by decide) (by decide)
  obtain ⟨s0, h0, hst⟩ := h.reachable
  refine ⟨_, _, _, r.commits, r.contentKeys, rfl, sampleNames S 3 False,
    ⟨s0, h0, .tail _ _ _ hst (.commit s 0 c calm 9 h.get h2)⟩, ?_, ?_, ?_⟩
  · unfold commits; rw [ha, get_set_self]
  · unfold contentKeys; rw [ha, get_set_self]
  · rw [hu.commits]; simp [h.commits]

/-- C138: two histories of two databases, each with any faults and crashes. If some commit of the one has the hash of some commit
of the other, then it is the same commit in the order of both, and up to it the two histories agree on everything: hashes, heads of
the values, times and parents, and, where the values have equally many leaves, the hashes of the contents - or SHA-512 collides. -/
theorem C138_hash_pins_the_history (cfg1 cfg2 : Cfg) (u1 u2 : Usage) (hS : cfg1.S = cfg2.S) (hn1 : Names cfg1 u1) (hn2 : Names cfg2 u2)
    (s1 s2 : State) (hs1 : Reachable cfg1 u1 s1) (hs2 : Reachable cfg2 u2 s2) (id1 id2 : Nat) (m1 m2 : Commits)
    (hm1 : commits s1.app id1 = .ok m1) (hm2 : commits s2.app id2 = .ok m2) (i j : Nat) (a b : Commit)
    (ha : m1.list[i]? = some a) (hb : m2.list[j]? = some b) (h : a.hash = b.hash) :
    (i = j ∧ ∀ (n : Nat) (x y : Commit), n ≤ i → m1.list[n]? = some x → m2.list[n]? = some y →
      x.hash = y.hash ∧ x.values.head = y.values.head ∧ x.createdOn = y.createdOn ∧ x.parent = y.parent ∧
      (toLength x.values = toLength y.values → leafHashes x.values = leafHashes y.values)) ∨
    ∃ x y : Bytes, x ≠ y ∧ cfg1.S.f x = cfg1.S.f y := by
  by_cases hcol : ∃ x y : Bytes, x ≠ y ∧ cfg1.S.f x = cfg1.S.f y
  · exact .inr hcol
  left
  obtain ⟨c1, r1, hg1, hr1, rfl⟩ := commits_ctx hm1
  obtain ⟨c2, r2, hg2, hr2, rfl⟩ := commits_ctx hm2
  have hc1 : CtxOK cfg1 u1 s1.fs c1 := (hs1.inv hn1).ctxs _ (get_mem hg1)
  have hc2 : CtxOK cfg2 u2 s2.fs c2 := (hs2.inv hn2).ctxs _ (get_mem hg2)
  have k1 := hc1.holds.ref r1 hr1
  have k2 := hc2.holds.ref r2 hr2
  have w2 : ∀ c ∈ r2.commits.list, c.WF cfg1.S _ := fun c hc => by rw [hS]; exact k2.wf.commits c hc
  obtain ⟨e, q⟩ := chains_agree k1.chain k2.chain k1.wf.commits w2 k1.unmined k2.unmined hcol i j a b ha hb h
  refine ⟨e, ?_⟩
  intro n x y hn hx hy
  obtain ⟨q1, q2, q3, q4⟩ := q n x y hn hx hy
  refine ⟨q1, q2, q3, q4, ?_⟩
  intro hl
  obtain ⟨g1, l1, _, t1⟩ := storedBy_groups k1.stored
  obtain ⟨g2, l2, _, t2⟩ := storedBy_groups k2.stored
  have n1 : n < g1.length := by rw [l1]; exact (List.getElem?_eq_some_iff.mp hx).1
  have n2 : n < g2.length := by rw [l2]; exact (List.getElem?_eq_some_iff.mp hy).1
  have b1 := (t1 n x g1[n] hx (List.getElem?_eq_getElem n1)).2.2
  have b2 := (t2 n y g2[n] hy (List.getElem?_eq_getElem n2)).2.2
  rw [← hS] at b2
  rcases C09_head_binds_leaves cfg1.S _ _ _ _ b1 b2 hl q2 with h | ⟨x, y, hxy, _, _, hf⟩
  · exact h
  · exact absurd ⟨x, y, hxy, hf⟩ hcol

/-- Two databases with two commits each. -/
example (S : Sha) : ∃ cfg u s m a, cfg.S = S ∧ Names cfg u ∧ Reachable cfg u s ∧ commits s.app 0 = .ok m ∧ m.list[1]? = some a := by
  obtain ⟨s, c, h⟩ := sample_ready S 3 False
  obtain ⟨h1, h2, t, r, j, hu, _, ha, _⟩ := h.commit (by decide) (by decide) (by decide)
  obtain ⟨s0, h0, hst⟩ := h.reachable
  have hlen : r.commits.list.length = 2 := by rw [hu.commits]; simp [h.commits]
  refine ⟨_, _, _, r.commits, r.commits.list[1], rfl, sampleNames S 3 False,
    ⟨s0, h0, .tail _ _ _ hst (.commit s 0 c calm 9 h.get h2)⟩, ?_, ?_⟩
  · unfold commits; rw [ha, get_set_self]
  · exact List.getElem?_eq_getElem (by omega)

/-- C138 (in one database): in every history no two commits an open database lists have the same hash, so every content belongs to
exactly one of them - or SHA-512 collides. -/
theorem C138_commits_are_different (cfg : Cfg) (u : Usage) (hn : Names cfg u) (s : State) (hs : Reachable cfg u s) (id : Nat)
    (m : Commits) (hm : commits s.app id = .ok m) (i j : Nat) (a b : Commit) (ha : m.list[i]? = some a) (hb : m.list[j]? = some b)
    (h : a.hash = b.hash) : i = j ∨ ∃ x y : Bytes, x ≠ y ∧ cfg.S.f x = cfg.S.f y := by
  rcases C138_hash_pins_the_history cfg cfg u u rfl hn hn s s hs hs id id m m hm hm i j a b ha hb h with h | h
  · exact .inl h.1
  · exact .inr h

example (S : Sha) : ∃ cfg u s m a, cfg.S = S ∧ Names cfg u ∧ Reachable cfg u s ∧ commits s.app 0 = .ok m ∧ m.list[1]? = some a := by
  obtain ⟨s, c, h⟩ := sample_ready S 3 False
  obtain ⟨h1, h2, t, r, j, hu, _, ha, _⟩ := h.commit (by decide) (by decide) (by decide)
  obtain ⟨s0, h0, hst⟩ := h.reachable
  have hlen : r.commits.list.length = 2 := by rw [hu.commits]; simp [h.commits]
  refine ⟨_, _, _, r.commits, r.commits.list[1], rfl, sampleNames S 3 False,
    ⟨s0, h0, .tail _ _ _ hst (.commit s 0 c calm 9 h.get h2)⟩, ?_, ?_⟩
  · unfold commits; rw [ha, get_set_self]
  · exact List.getElem?_eq_getElem (by omega)

end Props
end Rodkina
