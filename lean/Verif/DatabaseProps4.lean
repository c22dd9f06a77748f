import Verif.DatabaseProps3
import Mathlib.Data.List.Forall2
/-! Property theorems for the file database, C72: listings and batch reads. -/

namespace Rodkina
namespace Props

open Ref DB

theorem readAll_iff (fs : FS) (a : App) (id : Nat) (ps : List Pointer) (bs : List Bytes) :
    readAll fs a id ps = .ok bs ↔ List.Forall₂ (fun p b => DB.read fs a id p = .ok b) ps bs := by
  induction ps generalizing bs with
  | nil => simp [readAll, eq_comm]
  | cons p ps ih =>
    unfold readAll
    rw [Res.bind_eq_ok]
    simp only [Res.bind_eq_ok, Res.pure_eq, Res.ok.injEq, List.forall₂_cons_left_iff, ih]
    constructor
    · rintro ⟨b, hb, rest, hr, rfl⟩; exact ⟨b, rest, hb, hr, rfl⟩
    · rintro ⟨b, rest, hb, hr, rfl⟩; exact ⟨b, hb, rest, hr, rfl⟩

theorem readAllByHashes_iff (fs : FS) (a : App) (id : Nat) (hs : List Bytes) (bs : List Bytes) :
    readAllByHashes fs a id hs = .ok bs ↔ List.Forall₂ (fun h b => readByHash fs a id h = .ok b) hs bs := by
  induction hs generalizing bs with
  | nil => simp [readAllByHashes, eq_comm]
  | cons p ps ih =>
    unfold readAllByHashes
    rw [Res.bind_eq_ok]
    simp only [Res.bind_eq_ok, Res.pure_eq, Res.ok.injEq, List.forall₂_cons_left_iff, ih]
    constructor
    · rintro ⟨b, hb, rest, hr, rfl⟩; exact ⟨b, rest, hb, hr, rfl⟩
    · rintro ⟨b, rest, hb, hr, rfl⟩; exact ⟨b, hb, rest, hr, rfl⟩

/-- C72: reading several contents at once gives exactly the results of reading them one by one, in the order asked for, and
works only if each single read works. -/
theorem C72_batch_reads_agree (fs : FS) (a : App) (id : Nat) :
    (∀ ps bs, readAll fs a id ps = .ok bs ↔
      bs.length = ps.length ∧ ∀ (i : Nat) p b, ps[i]? = some p → bs[i]? = some b → DB.read fs a id p = .ok b) ∧
    (∀ hs bs, readAllByHashes fs a id hs = .ok bs ↔
      bs.length = hs.length ∧ ∀ (i : Nat) h b, hs[i]? = some h → bs[i]? = some b → readByHash fs a id h = .ok b) := by
  have key : ∀ {α : Type} (R : α → Bytes → Prop) (xs : List α) (bs : List Bytes), List.Forall₂ R xs bs ↔
      bs.length = xs.length ∧ ∀ (i : Nat) x b, xs[i]? = some x → bs[i]? = some b → R x b := by
    intro α R xs bs
    rw [List.forall₂_iff_get]
    constructor
    · rintro ⟨h1, h2⟩
      refine ⟨h1.symm, fun i x b hx hb => ?_⟩
      obtain ⟨hi, rfl⟩ := List.getElem?_eq_some_iff.mp hx
      obtain ⟨hj, rfl⟩ := List.getElem?_eq_some_iff.mp hb
      exact h2 i hi hj
    · rintro ⟨h1, h2⟩
      exact ⟨h1.symm, fun i hi hj => h2 i _ _ (by simp) (by simp)⟩
  exact ⟨fun ps bs => (readAll_iff fs a id ps bs).trans (key _ _ _), fun hs bs => (readAllByHashes_iff fs a id hs bs).trans (key _ _ _)⟩

/-- The hypotheses are met by a database whose content is read twice in one call. -/
example (S : Sha) : ∃ (s : State) (c : Ctx), s.app.get 0 = some c ∧
    readAll s.fs s.app 0 [⟨0, 5⟩, ⟨1, 2⟩] = .ok [[1, 2, 3, 4, 5], [2, 3]] := by
  obtain ⟨s, c, h⟩ := sample_ready S 10 True
  have hc : CtxOK (sampleCfg S 10) (sampleUsage True) s.fs c := (h.reachable.inv (sampleNames S 10 True)).ctxs _ (get_mem h.get)
  refine ⟨s, c, h.get, ?_⟩
  rw [readAll_iff]
  have key : ∀ p : Pointer, 0 < p.length → p.from' < 2 ^ 63 → p.from' + p.length ≤ 5 →
      DB.read s.fs s.app 0 p = .ok (([1, 2, 3, 4, 5] : Bytes).drop p.from' |>.take p.length) := by
    intro p h0 h1 h2
    rw [read_ok h.get (List.take_append_drop c.dataOffset _).symm
      (by rw [List.length_take, Nat.min_eq_left (hc.holds.bounds h.reference).1])
      (by rw [List.take_append_drop]; exact (hc.holds.bounds h.reference).2) h.isOpen h0 h1]
    have := h.data
    unfold dataOf at this
    rw [this]
    exact ⟨h2, rfl⟩
  exact .cons (key ⟨0, 5⟩ (by decide) (by decide) (by decide)) (.cons (key ⟨1, 2⟩ (by decide) (by decide) (by decide)) .nil)

/-- C72: the listing by kind gives exactly the keys of that kind, in the order in which they were stored, and an error when
there is none; what it gives can be searched by hash. -/
theorem C72_listing_by_kind (a : App) (id kind : Nat) (k : ContentKeys) (hk : contentKeys a id = .ok k) :
    (contentKeysByKind a id kind = .err ↔ ∀ x ∈ k.list, x.kind ≠ kind) ∧ contentKeysByKind a id kind ≠ .panic ∧
    ∀ q, contentKeysByKind a id kind = .ok q → q.list = k.list.filter (fun x => decide (x.kind = kind)) ∧
      ∀ h x, q.fetch h = .ok x ↔ IsLast (fun y => y.hash = h) (k.list.filter (fun x => decide (x.kind = kind))) x := by
  unfold contentKeysByKind
  rw [hk]
  simp only [Res.bind_ok, C14_keys_by_kind]
  by_cases he : (k.list.filter (fun x => decide (x.kind = kind))) = []
  · rw [he]
    simp only [List.isEmpty_nil, if_true, true_iff, ne_eq, reduceCtorEq, not_false_eq_true, false_implies, implies_true, and_true]
    intro x hx hkx
    have : x ∈ k.list.filter (fun x => decide (x.kind = kind)) := by simp [hx, hkx]
    rw [he] at this
    cases this
  · have h2 : (k.list.filter (fun x => decide (x.kind = kind))).isEmpty = false := by simpa using he
    rw [h2]
    simp only [Bool.false_eq_true, if_false]
    have h3 : contentKeysNow (k.list.filter (fun x => decide (x.kind = kind))) =
        .ok ⟨GoMap.ofList (fun k => Hash.toString k.hash) (k.list.filter (fun x => decide (x.kind = kind))),
          k.list.filter (fun x => decide (x.kind = kind))⟩ := by
      unfold contentKeysNow
      rw [if_neg (by rw [h2]; simp)]
    rw [h3]
    refine ⟨?_, by simp, ?_⟩
    · simp only [reduceCtorEq, false_iff]
      intro hall
      obtain ⟨x, hx⟩ := List.exists_mem_of_ne_nil _ he
      simp only [List.mem_filter, decide_eq_true_eq] at hx
      exact hall x hx.1 hx.2
    · intro q hq
      injection hq with hq
      subst hq
      exact ⟨rfl, fun h x => (C14_keys_fetch _ _ h3 h).1 x⟩

/-- C72: in every reachable state, looking up a commit by its hash gives the last listed commit with that hash, and an error
when there is none. -/
theorem C72_commit_by_hash (cfg : Cfg) (u : Usage) (hn : Names cfg u) (s : State) (hs : Reachable cfg u s) (id : Nat)
    (k : Commits) (hk : commits s.app id = .ok k) (h : Bytes) :
    (∀ x, commitByHash s.app id h = .ok x ↔ IsLast (fun y => y.hash = h) k.list x) ∧
    (commitByHash s.app id h = .err ↔ ∀ x ∈ k.list, x.hash ≠ h) ∧ commitByHash s.app id h ≠ .panic := by
  have e : commitByHash s.app id h = k.fetch h := by unfold commitByHash; rw [hk]; rfl
  rw [e]
  unfold commits at hk
  cases hg : s.app.get id with
  | none => rw [hg] at hk; cases hk
  | some c =>
    rw [hg] at hk
    simp only at hk
    cases hr : c.reference with
    | none => rw [hr] at hk; cases hk
    | some r =>
      rw [hr] at hk
      injection hk with hk
      subst hk
      have hc : CtxOK cfg u s.fs c := (hs.inv hn).ctxs _ (get_mem hg)
      have hh := hc.holds
      rw [hr] at hh
      have hb := hh.1.wf.commitsBuilt
      obtain ⟨q1, q2, q3, _⟩ := C20_fetch _ _ hb h
      exact ⟨q1, q2, q3⟩

/-- The hypotheses hold for a database with one commit. -/
example (S : Sha) : ∃ cfg u s k q, cfg.S = S ∧ Names cfg u ∧ Reachable cfg u s ∧ commits s.app 0 = .ok k ∧ k.list.length = 1 ∧
    contentKeys s.app 0 = .ok q ∧ q.list.length = 1 := by
  obtain ⟨s, c, h⟩ := sample_ready S 10 True
  have hk := congrArg List.length h.keys
  have hm := h.commits
  cases hr : c.reference with
  | none => exact absurd hr h.reference
  | some r =>
    rw [hr] at hk hm
    refine ⟨_, _, s, r.commits, r.contentKeys, rfl, sampleNames S 10 True, h.reachable, ?_, hm, ?_, by simpa [oldKeys] using hk⟩
    · unfold commits; rw [h.get]; simp only [hr]
    · unfold contentKeys; rw [h.get]; simp only [hr]

end Props
end Rodkina
