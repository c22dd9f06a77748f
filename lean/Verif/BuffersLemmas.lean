import Verif.BuffersSpec
import Verif.MemoryLemmas
import Verif.DatabaseProps
/-! Lemmas about the buffers given to `Write`. -/

namespace Rodkina
namespace DB

open Ref

/-! ### Memory -/

theorem getD_append_left {α : Type} (h : Mem.Heap α) (x : List α) {k : Nat} (hk : k < h.length) : (h ++ [x]).getD k [] = h.getD k [] := by
  simp only [List.getD_eq_getElem?_getD, List.getElem?_append_left hk]

theorem read_append {α : Type} (h : Mem.Heap α) (x : List α) {p : Mem.Ptr} (hp : p.Valid h) : Mem.read (h ++ [x]) p = Mem.read h p := by
  unfold Mem.read; rw [getD_append_left _ _ hp.1]

theorem valid_append {α : Type} (h : Mem.Heap α) (x : List α) {p : Mem.Ptr} (hp : p.Valid h) : p.Valid (h ++ [x]) := by
  refine ⟨?_, hp.2.1, ?_⟩
  · have := hp.1; simp; omega
  · rw [getD_append_left _ _ hp.1]; exact hp.2.2

theorem poke_getD (h : Mem.Heap UInt8) (arr i : Nat) (b : UInt8) (k : Nat) :
    (poke h arr i b).getD k [] = if k = arr then (h.getD k []).set i b else h.getD k [] := by
  unfold poke
  simp only [List.getD_eq_getElem?_getD, List.getElem?_set]
  by_cases hk : arr = k
  · subst hk
    by_cases hl : arr < h.length
    · simp [hl]
    · simp [hl]
  · rw [if_neg hk, if_neg (Ne.symm hk)]

theorem poke_valid {h : Mem.Heap UInt8} {arr i : Nat} {b : UInt8} {p : Mem.Ptr} (hp : p.Valid h) : p.Valid (poke h arr i b) := by
  refine ⟨?_, hp.2.1, ?_⟩
  · unfold poke; simpa using hp.1
  · rw [poke_getD]; split
    · simpa using hp.2.2
    · exact hp.2.2

theorem poke_read {h : Mem.Heap UInt8} {arr i : Nat} {b : UInt8} {p : Mem.Ptr}
    (hp : ¬ (p.arr = arr ∧ p.off ≤ i ∧ i < p.off + p.len)) : Mem.read (poke h arr i b) p = Mem.read h p := by
  unfold Mem.read
  rw [poke_getD]
  split
  · rename_i hk
    apply List.ext_getElem?
    intro j
    simp only [List.getElem?_take, List.getElem?_drop, List.getElem?_set]
    by_cases hj : j < p.len
    · rw [if_pos hj, if_pos hj, if_neg]
      intro e
      exact hp ⟨hk, by omega, by omega⟩
    · rw [if_neg hj, if_neg hj]
  · rfl

/-! ### Contexts with other pending contents -/

theorem fill_get (f : Nat → List Content) (a : App) (id : Nat) :
    (fill f a).get id = (a.get id).map (fun c => { c with contentList := f id }) := by
  induction a with
  | nil => rfl
  | cons e es ih =>
    unfold App.get fill at ih ⊢
    simp only [List.map_cons, List.find?_cons]
    by_cases h : (e.1 == id) = true
    · have : e.1 = id := by simpa using h
      simp [this]
    · simp only [h]
      exact ih

theorem fill_filter (f : Nat → List Content) (a : App) (id : Nat) :
    fill f (a.filter (fun e => !(e.1 == id))) = (fill f a).filter (fun e => !(e.1 == id)) := by
  unfold fill
  rw [List.filter_map]
  rfl

theorem fill_set (f : Nat → List Content) (a : App) (id : Nat) (c : Ctx) :
    fill f (a.set id c) = (fill f a).set id { c with contentList := f id } := by
  unfold App.set
  rw [← fill_filter]
  rfl

theorem fill_delete (f : Nat → List Content) (a : App) (id : Nat) : fill f (a.delete id) = (fill f a).delete id := fill_filter f a id

theorem fill_fill (f g : Nat → List Content) (a : App) : fill f (fill g a) = fill f a := by
  unfold fill; rw [List.map_map]; rfl

theorem fill_congr {f g : Nat → List Content} {a : App} (h : ∀ e ∈ a, f e.1 = g e.1) : fill f a = fill g a := by
  unfold fill
  apply List.map_congr_left
  intro e he
  rw [h e he]

theorem fill_upd_filter (f : Nat → List Content) (a : App) (id : Nat) (l : List Content) :
    fill (upd f id l) (a.filter (fun e => !(e.1 == id))) = fill f (a.filter (fun e => !(e.1 == id))) := by
  apply fill_congr
  intro e he
  have := (List.mem_filter.mp he).2
  rw [upd_ne]
  simpa using this

theorem fill_upd_set (f : Nat → List Content) (a : App) (id : Nat) (l : List Content) (c : Ctx) :
    fill (upd f id l) (a.set id c) = (fill f a).set id { c with contentList := l } := by
  have h := fill_upd_filter f a id l
  unfold App.set
  rw [← fill_filter, ← h]
  unfold fill
  simp only [List.map_cons, upd_self]

theorem fill_upd_delete (f : Nat → List Content) (a : App) (id : Nat) (l : List Content) :
    fill (upd f id l) (a.delete id) = (fill f a).delete id := by
  unfold App.delete
  rw [← fill_filter]
  exact fill_upd_filter f a id l

theorem fill_length (f : Nat → List Content) (a : App) : (fill f a).length = a.length := by simp [fill]

theorem fill_any (f : Nat → List Content) (a : App) (n : Name) :
    (fill f a).any (fun e => e.2.name == n) = a.any (fun e => e.2.name == n) := by
  unfold fill
  rw [List.any_map]
  rfl

/-- Reading does not look at the pending contents. -/
theorem fill_readByHash (f : Nat → List Content) (fs : FS) (a : App) (id : Nat) (h : Bytes) :
    readByHash fs (fill f a) id h = readByHash fs a id h := by
  unfold readByHash contentKeys read
  rw [fill_get]
  cases a.get id <;> rfl

theorem held_upd (s : Buffered) (id : Nat) (l : List Held) :
    (fun i => ((upd s.held id l) i).map (Held.now s.heap)) =
      upd (fun i => (s.held i).map (Held.now s.heap)) id (l.map (Held.now s.heap)) := by
  funext i
  by_cases h : i = id
  · subst h; rw [upd_self, upd_self]
  · rw [upd_ne _ _ h, upd_ne _ _ h]

theorem view_get (s : Buffered) (id : Nat) :
    s.view.get id = (s.app.get id).map (fun c => { c with contentList := (s.held id).map (Held.now s.heap) }) := fill_get _ _ _

theorem view_of_heap {s : Buffered} {h : Mem.Heap UInt8} (hh : ∀ id, ∀ x ∈ s.held id, Mem.read h x.data = Mem.read s.heap x.data) :
    ({ s with heap := h } : Buffered).view = s.view := by
  unfold Buffered.view
  apply fill_congr
  intro e _
  apply List.map_congr_left
  intro x hx
  unfold Held.now
  rw [hh _ x hx]

theorem commit_pending (cfg : Cfg) (o : Pt → Fault) (now : Int) (fs : FS) (f : Nat → List Content) (a : App) (id : Nat) :
    fill f (commit cfg o now fs (fill f a) id).app = (commit cfg o now fs (fill f a) id).app := by
  have key : ∀ c, (fill f a).get id = some c → ∀ d : Ctx, d.contentList = c.contentList →
      fill f ((fill f a).set id d) = (fill f a).set id d := by
    intro c hc d hd
    rw [fill_set, fill_fill]
    rw [fill_get] at hc
    cases hg : a.get id with
    | none => rw [hg] at hc; cases hc
    | some c0 =>
      rw [hg] at hc
      simp only [Option.map_some, Option.some.injEq] at hc
      have : d.contentList = f id := by rw [hd, ← hc]
      rw [← this]
  unfold commit
  cases hg : (fill f a).get id with
  | none => exact fill_fill _ _ _
  | some c =>
    dsimp only
    cases updateReference cfg c now with
    | err => exact fill_fill _ _ _
    | panic => exact fill_fill _ _ _
    | ok r =>
      dsimp only
      rcases h : (updateDatabaseOnFile cfg o c r).run ⟨fs, c.conn⟩ with ⟨out, w⟩
      cases out with
      | ok p => obtain ⟨conn, off⟩ := p; exact key c hg _ rfl
      | err => exact key c hg _ rfl
      | panic => exact key c hg _ rfl
      | crash => exact key c hg _ rfl
      | hang => exact key c hg _ rfl

theorem view_commit (cfg : Cfg) (o : Pt → Fault) (now : Int) (s : Buffered) (id : Nat) :
    ((BCall.commit id o now).run cfg s).view = (commit cfg o now s.fs s.view id).app := commit_pending cfg o now s.fs _ s.app id

/-- What a step is on the contexts as a commit finds them. -/
theorem step_view (cfg : Cfg) (s : Buffered) (hs : s.Valid) (x : BCall) (hx : x.Careful s) :
    (x.run cfg s).Valid ∧ ((x.run cfg s).fs, (x.run cfg s).view) =
      match x.meant s with
      | none => (s.fs, s.view)
      | some y => y.run cfg s.fs s.view := by
  cases x with
  | new n =>
    simp only [BCall.run, BCall.meant, Call.run]
    cases new' cfg s.fs n <;> exact ⟨hs, rfl⟩
  | delete n =>
    simp only [BCall.run, BCall.meant, Call.run]
    cases delete' cfg s.fs n <;> exact ⟨hs, rfl⟩
  | open' n =>
    simp only [BCall.run, BCall.meant, Call.run]
    have e : DB.open' cfg s.fs s.view n = if s.app.any (fun e => e.2.name == n) then .err
        else retrieveAt cfg s.fs (cfg.path n) >>= fun r =>
          pure (s.app.length, s.view.set s.app.length ⟨n, ⟨(s.fs.dir (cfg.path n)).getD 0, 0, true⟩, r.1, r.2, []⟩) := by
      unfold DB.open' Buffered.view
      rw [fill_any, fill_length]
    rw [e]
    unfold DB.open'
    by_cases hn : (s.app.any (fun e => e.2.name == n)) = true
    · rw [if_pos hn, if_pos hn]; exact ⟨hs, rfl⟩
    · rw [if_neg hn, if_neg hn]
      cases retrieveAt cfg s.fs (cfg.path n) with
      | err => exact ⟨hs, rfl⟩
      | panic => exact ⟨hs, rfl⟩
      | ok r =>
        simp only [Res.bind_ok, Res.pure_eq]
        refine ⟨?_, ?_⟩
        · intro id y hy
          by_cases h : id = s.app.length
          · subst h; simp only [upd_self] at hy; cases hy
          · simp only [upd_ne _ _ h] at hy; exact hs id y hy
        · unfold Buffered.view
          simp only [held_upd, List.map_nil, fill_upd_set]
  | close id =>
    simp only [BCall.run, BCall.meant, Call.run, close, view_get]
    cases hg : s.app.get id with
    | none => exact ⟨hs, rfl⟩
    | some c =>
      simp only [Option.map_some]
      by_cases ho : c.conn.isOpen = true
      · simp only [ho, if_true]
        refine ⟨?_, ?_⟩
        · intro i y hy
          by_cases h : i = id
          · subst h; simp only [upd_self] at hy; cases hy
          · simp only [upd_ne _ _ h] at hy; exact hs i y hy
        · unfold Buffered.view
          simp only [held_upd, List.map_nil, fill_upd_delete]
      · simp only [ho, Bool.false_eq_true, if_false]
        exact ⟨hs, trivial⟩
  | write id hash p kind =>
    have hp : p.Valid s.heap := hx
    simp only [BCall.run, BCall.meant, Call.run, write, view_get]
    cases hg : s.app.get id with
    | none => exact ⟨hs, rfl⟩
    | some c =>
      simp only [Option.map_some]
      have hl := Mem.read_length hp
      by_cases h0 : p.len = 0
      · have : Mem.read s.heap p = [] := List.length_eq_zero_iff.mp (by omega)
        simp only [h0, if_true, this, contentNow, List.isEmpty_nil]
        exact ⟨hs, rfl⟩
      · have hne : (Mem.read s.heap p).isEmpty = false := by
          cases hr : Mem.read s.heap p with
          | nil => rw [hr] at hl; simp at hl; omega
          | cons => rfl
        simp only [h0, if_false, contentNow, hne, Bool.false_eq_true, Res.bind_ok, Res.pure_eq]
        refine ⟨?_, ?_⟩
        · intro i y hy
          by_cases h : i = id
          · subst h
            simp only [upd_self, List.mem_append, List.mem_singleton] at hy
            rcases hy with hy | rfl
            · exact hs _ y hy
            · exact ⟨hp, by dsimp only; omega⟩
          · simp only [upd_ne _ _ h] at hy; exact hs i y hy
        · unfold Buffered.view
          simp only [held_upd, fill_upd_set, List.map_append, List.map_cons, List.map_nil]
          rfl
  | cancel id =>
    simp only [BCall.run, BCall.meant, Call.run, cancel, view_get]
    cases hg : s.app.get id with
    | none => exact ⟨hs, rfl⟩
    | some c =>
      simp only [Option.map_some]
      refine ⟨?_, ?_⟩
      · intro i y hy
        by_cases h : i = id
        · subst h; simp only [upd_self] at hy; cases hy
        · simp only [upd_ne _ _ h] at hy; exact hs i y hy
      · unfold Buffered.view
        simp only [held_upd, List.map_nil, fill_upd_set]
  | commit id o now =>
    refine ⟨hs, ?_⟩
    rw [view_commit]
    rfl
  | readByHash id hash =>
    simp only [BCall.run, BCall.meant]
    cases readByHash s.fs s.app id hash with
    | err => exact ⟨hs, rfl⟩
    | panic => exact ⟨hs, rfl⟩
    | ok bytes =>
      refine ⟨fun i y hy => ⟨valid_append _ _ (hs i y hy).1, (hs i y hy).2⟩, ?_⟩
      dsimp only
      rw [view_of_heap (fun i y hy => read_append _ _ (hs i y hy).1)]
  | restart => exact ⟨by intro i y hy; simp [BCall.run] at hy, rfl⟩
  | alloc bytes =>
    refine ⟨fun i y hy => ⟨valid_append _ _ (hs i y hy).1, (hs i y hy).2⟩, ?_⟩
    simp only [BCall.run, BCall.meant]
    rw [view_of_heap (fun i y hy => read_append _ _ (hs i y hy).1)]
  | store arr i b =>
    refine ⟨fun j y hy => ⟨poke_valid (hs j y hy).1, (hs j y hy).2⟩, ?_⟩
    simp only [BCall.run, BCall.meant]
    rw [view_of_heap (fun j y hy => poke_read (hx j y hy))]

theorem run_cons (cfg : Cfg) (s : Buffered) (x : BCall) (L : List BCall) : s.run cfg (x :: L) = (x.run cfg s).run cfg L := rfl

theorem runCalls_append (cfg : Cfg) (s : FS × App) (K L : List Call) : runCalls cfg s (K ++ L) = runCalls cfg (runCalls cfg s K) L := by
  unfold runCalls; rw [List.foldl_append]

theorem run_view (cfg : Cfg) (L : List BCall) : ∀ s : Buffered, s.Valid → CarefulAll cfg s L →
    (s.run cfg L).Valid ∧ ((s.run cfg L).fs, (s.run cfg L).view) = runCalls cfg (s.fs, s.view) (meantAll cfg s L) := by
  induction L with
  | nil => exact fun s hs _ => ⟨hs, rfl⟩
  | cons x L ih =>
    intro s hs hc
    obtain ⟨h1, h2⟩ := step_view cfg s hs x hc.1
    obtain ⟨h3, h4⟩ := ih _ h1 hc.2
    rw [run_cons]
    refine ⟨h3, ?_⟩
    rw [h4, h2]
    rw [show meantAll cfg s (x :: L) = (x.meant s).toList ++ meantAll cfg (x.run cfg s) L from rfl]
    cases x.meant s with
    | none => rfl
    | some y => rfl

/-! ### Every state is one that an application taking data by value gets into -/

theorem call_steps (cfg : Cfg) (u : Usage) (fs : FS) (a : App) (y : Call)
    (hy : match y with
      | .new n => u.names n
      | .delete n => u.names n ∧ (u.tidy → ∀ e ∈ a, e.2.name ≠ n)
      | .open' n => u.names n
      | .write _ h _ k => h.length = 64 ∧ k < 2 ^ 64
      | .commit id o now => ∀ c, a.get id = some c → CommitFits cfg u o now fs a id c
      | _ => True) : Steps cfg u ⟨fs, a⟩ ⟨(y.run cfg fs a).1, (y.run cfg fs a).2⟩ := by
  cases y with
  | new n =>
    simp only [Call.run]
    cases h : new' cfg fs n with
    | ok fs' => exact .tail _ _ _ (.refl _) (.new _ n fs' hy h)
    | err => exact .refl _
    | panic => exact .refl _
  | delete n =>
    simp only [Call.run]
    cases h : delete' cfg fs n with
    | ok fs' => exact .tail _ _ _ (.refl _) (.delete _ n fs' hy.1 hy.2 h)
    | err => exact .refl _
    | panic => exact .refl _
  | open' n =>
    simp only [Call.run]
    cases h : DB.open' cfg fs a n with
    | ok r => obtain ⟨id, a'⟩ := r; exact .tail _ _ _ (.refl _) (.open' ⟨fs, a⟩ n id a' hy h)
    | err => exact .refl _
    | panic => exact .refl _
  | close id =>
    simp only [Call.run]
    cases h : DB.close a id with
    | ok a' => exact .tail _ _ _ (.refl _) (.close ⟨fs, a⟩ id a' h)
    | err => exact .refl _
    | panic => exact .refl _
  | write id hash data kind =>
    simp only [Call.run]
    cases h : DB.write a id hash data kind with
    | ok a' => exact .tail _ _ _ (.refl _) (.write ⟨fs, a⟩ id hash data kind a' hy.1 hy.2 h)
    | err => exact .refl _
    | panic => exact .refl _
  | cancel id =>
    simp only [Call.run]
    cases h : DB.cancel a id with
    | ok a' => exact .tail _ _ _ (.refl _) (.cancel ⟨fs, a⟩ id a' h)
    | err => exact .refl _
    | panic => exact .refl _
  | commit id o now =>
    simp only [Call.run]
    cases h : a.get id with
    | none =>
      have : commit cfg o now fs a id = ⟨.err, fs, a⟩ := by unfold commit; rw [h]
      rw [this]
      exact .refl _
    | some c => exact .tail _ _ _ (.refl _) (.commit ⟨fs, a⟩ id c o now h (hy c h))
  | restart => exact .tail _ _ _ (.refl _) (.restart _)

theorem Steps.trans {cfg : Cfg} {u : Usage} {s t v : State} (h : Steps cfg u s t) (h' : Steps cfg u t v) : Steps cfg u s v := by
  induction h' with
  | refl => exact h
  | tail a b _ hs ih => exact .tail _ _ _ ih hs

/-- Pending contents can be replaced by any others, with `Cancel` and `Write`. -/
theorem rewrite_steps (cfg : Cfg) (u : Usage) (fs : FS) (a : App) (id : Nat) (c : Ctx) (hg : a.get id = some c) (l : List Content)
    (hl : ∀ x ∈ l, x.WF) : Steps cfg u ⟨fs, a⟩ ⟨fs, a.set id { c with contentList := l }⟩ := by
  have hcancel : Steps cfg u ⟨fs, a⟩ ⟨fs, a.set id { c with contentList := [] }⟩ :=
    .tail _ _ _ (.refl _) (.cancel ⟨fs, a⟩ id _ (by unfold cancel; rw [hg]))
  refine hcancel.trans ?_
  have : ∀ (r p : List Content), (∀ x ∈ r, x.WF) →
      Steps cfg u ⟨fs, a.set id { c with contentList := p }⟩ ⟨fs, a.set id { c with contentList := p ++ r }⟩ := by
    intro r
    induction r with
    | nil => intro p _; rw [List.append_nil]; exact .refl _
    | cons x r ih =>
      intro p hr
      have h1 := hr x (by simp)
      have h2 := ih (p ++ [x]) (fun y hy => hr y (by simp [hy]))
      rw [List.append_assoc] at h2
      refine Steps.trans (.tail _ _ _ (.refl _) (.write ⟨fs, _⟩ id x.hash x.data x.kind _ h1.1 h1.2.2 ?_)) h2
      have hd : x.data.isEmpty = false := by
        cases hx : x.data with
        | nil => exact absurd hx h1.2.1
        | cons => rfl
      simp only [write, get_set_self, contentNow, hd, Bool.false_eq_true, if_false, Res.bind_ok, Res.pure_eq]
      rw [Props.set_set]
  exact this l [] hl

/-- No two contexts have the same identifier. -/
def Keys (a : App) : Prop := (a.map (·.1)).Nodup

theorem keys_filter {a : App} (h : Keys a) (p : Nat × Ctx → Bool) : Keys (a.filter p) :=
  List.Nodup.sublist (List.Sublist.map _ List.filter_sublist) h

theorem keys_set {a : App} (h : Keys a) (id : Nat) (c : Ctx) : Keys (a.set id c) := by
  unfold Keys App.set
  rw [List.map_cons, List.nodup_cons]
  refine ⟨?_, keys_filter h _⟩
  intro hm
  obtain ⟨e, he, e1⟩ := List.mem_map.mp hm
  have := (List.mem_filter.mp he).2
  simp [e1] at this

theorem keys_get {a : App} (h : Keys a) {e : Nat × Ctx} (he : e ∈ a) : a.get e.1 = some e.2 := by
  induction a with
  | nil => cases he
  | cons d ds ih =>
    unfold Keys at h
    rw [List.map_cons, List.nodup_cons] at h
    unfold App.get
    rw [List.find?_cons]
    rcases List.mem_cons.mp he with rfl | he
    · simp
    · have hne : d.1 ≠ e.1 := by
        intro e1
        exact h.1 (List.mem_map.mpr ⟨e, he, e1.symm⟩)
      have : (d.1 == e.1) = false := by simpa using hne
      rw [this]
      exact ih h.2 he

/-- The pending contents of all contexts can be replaced. -/
theorem fill_steps (cfg : Cfg) (u : Usage) (fs : FS) (f : Nat → List Content) (hf : ∀ id, ∀ x ∈ f id, x.WF) (a : App) (hk : Keys a) :
    Steps cfg u ⟨fs, a⟩ ⟨fs, fill f a⟩ := by
  have : ∀ (suf pre : App), Keys (pre ++ suf) → Steps cfg u ⟨fs, pre ++ suf⟩ ⟨fs, fill f suf ++ pre⟩ := by
    intro suf
    induction suf with
    | nil => intro pre _; simp [fill]; exact .refl _
    | cons e suf ih =>
      intro pre hk
      have h1 := ih (pre ++ [e]) (by simpa using hk)
      rw [List.append_assoc] at h1
      refine h1.trans ?_
      have e1 : (fill f suf).map (·.1) = suf.map (·.1) := by unfold fill; rw [List.map_map]; rfl
      have hk' : Keys (fill f suf ++ (pre ++ [e])) := by
        unfold Keys at hk ⊢
        rw [List.map_append, e1, List.map_append]
        rw [List.map_append] at hk
        refine (List.Perm.nodup_iff ?_).mp hk
        refine List.perm_append_comm.trans ?_
        simp only [List.map_cons, List.cons_append, List.map_nil]
        rw [← List.append_assoc]
        exact (List.perm_append_comm (l₁ := [e.1]) (l₂ := suf.map (·.1) ++ pre.map (·.1)))
      have hg := keys_get hk' (e := e) (by simp)
      have h2 := rewrite_steps cfg u fs _ e.1 e.2 hg (f e.1) (hf e.1)
      refine h2.trans ?_
      have : App.set (fill f suf ++ (pre ++ [e])) e.1 { e.2 with contentList := f e.1 } = fill f (e :: suf) ++ pre := by
        unfold App.set
        have hne : ∀ d ∈ fill f suf ++ pre, (!(d.1 == e.1)) = true := by
          intro d hd
          have hnot : e.1 ∉ (fill f suf ++ pre).map (·.1) := by
            unfold Keys at hk'
            rw [← List.append_assoc, List.map_append, List.nodup_append] at hk'
            intro hm
            exact hk'.2.2 e.1 hm e.1 (by simp) rfl
          have : d.1 ≠ e.1 := by
            intro e2
            exact hnot (List.mem_map.mpr ⟨d, hd, e2⟩)
          simpa using this
        rw [← List.append_assoc, List.filter_append, List.filter_eq_self.mpr hne]
        simp [fill]
      rw [this]
      exact .refl _
  simpa using this a [] (by simpa using hk)

theorem keys_call (cfg : Cfg) (fs : FS) (a : App) (hk : Keys a) (y : Call) : Keys (y.run cfg fs a).2 := by
  cases y with
  | new n => simp only [Call.run]; cases new' cfg fs n <;> exact hk
  | delete n => simp only [Call.run]; cases delete' cfg fs n <;> exact hk
  | open' n =>
    simp only [Call.run, open']
    by_cases h : (a.any (fun e => e.2.name == n)) = true
    · rw [if_pos h]; exact hk
    · rw [if_neg h]
      cases retrieveAt cfg fs (cfg.path n) with
      | ok r => exact keys_set hk _ _
      | err => exact hk
      | panic => exact hk
  | close id =>
    simp only [Call.run, close]
    cases a.get id with
    | none => exact hk
    | some c =>
      dsimp only
      cases c.conn.isOpen with
      | true => exact keys_filter hk _
      | false => exact hk
  | write id h d k =>
    simp only [Call.run, write]
    cases a.get id with
    | none => exact hk
    | some c =>
      dsimp only
      cases contentNow h d k with
      | ok x => exact keys_set hk _ _
      | err => exact hk
      | panic => exact hk
  | cancel id =>
    simp only [Call.run, cancel]
    cases a.get id with
    | none => exact hk
    | some c => exact keys_set hk _ _
  | commit id o now =>
    simp only [Call.run, commit]
    cases a.get id with
    | none => exact hk
    | some c =>
      dsimp only
      cases updateReference cfg c now with
      | err => exact hk
      | panic => exact hk
      | ok r =>
        dsimp only
        rcases (updateDatabaseOnFile cfg o c r).run ⟨fs, c.conn⟩ with ⟨out, w⟩
        cases out with
        | ok p => obtain ⟨conn, off⟩ := p; exact keys_set hk _ _
        | err => exact keys_set hk _ _
        | panic => exact keys_set hk _ _
        | crash => exact keys_set hk _ _
        | hang => exact keys_set hk _ _
  | restart => exact List.nodup_nil

theorem keys_fill (f : Nat → List Content) (a : App) : Keys (fill f a) ↔ Keys a := by
  unfold Keys fill; rw [List.map_map]; rfl

/-- What is true of every state of a program with buffers. -/
structure BufferedInv (cfg : Cfg) (u : Usage) (s : Buffered) : Prop where
  valid : s.Valid
  sizes : ∀ id, ∀ x ∈ s.held id, x.hash.length = 64 ∧ x.kind < 2 ^ 64
  keys : Keys s.view
  reach : Reachable cfg u ⟨s.fs, s.view⟩

theorem BufferedInv.pending {cfg : Cfg} {u : Usage} {s : Buffered} (hs : BufferedInv cfg u s) (h : Mem.Heap UInt8)
    (hv : ∀ id, ∀ x ∈ s.held id, x.data.Valid h) (id : Nat) : ∀ x ∈ (s.held id).map (Held.now h), x.WF := by
  intro x hx
  obtain ⟨y, hy, rfl⟩ := List.mem_map.mp hx
  refine ⟨(hs.sizes id y hy).1, ?_, (hs.sizes id y hy).2⟩
  have h1 := Mem.read_length (hv id y hy)
  have h2 := (hs.valid id y hy).2
  intro e
  unfold Held.now at e
  dsimp only at e
  rw [e] at h1
  simp at h1
  omega

theorem Reachable.steps {cfg : Cfg} {u : Usage} {s t : State} (h : Reachable cfg u s) (h' : Steps cfg u s t) : Reachable cfg u t := by
  obtain ⟨s0, h0, h1⟩ := h
  exact ⟨s0, h0, h1.trans h'⟩

theorem BufferedInv.store {cfg : Cfg} {u : Usage} {s : Buffered} (hs : BufferedInv cfg u s) (arr i : Nat) (b : UInt8) :
    BufferedInv cfg u ((BCall.store arr i b).run cfg s) := by
  have hv : ∀ id, ∀ x ∈ s.held id, x.data.Valid (poke s.heap arr i b) := fun id x hx => poke_valid (hs.valid id x hx).1
  refine ⟨fun id x hx => ⟨hv id x hx, (hs.valid id x hx).2⟩, hs.sizes, ?_, ?_⟩
  · unfold Buffered.view
    rw [keys_fill]
    exact (keys_fill _ _).mp hs.keys
  · have h := fill_steps cfg u s.fs (fun id => (s.held id).map (Held.now (poke s.heap arr i b))) (fun id => hs.pending _ hv id) s.view hs.keys
    have h' := hs.reach.steps h
    unfold Buffered.view at h'
    rw [fill_fill] at h'
    exact h'

theorem sizes_upd {s : Buffered} (hs : ∀ id, ∀ x ∈ s.held id, x.hash.length = 64 ∧ x.kind < 2 ^ 64) (id : Nat) (l : List Held)
    (hl : ∀ x ∈ l, x.hash.length = 64 ∧ x.kind < 2 ^ 64) :
    ∀ i, ∀ x ∈ (upd s.held id l) i, x.hash.length = 64 ∧ x.kind < 2 ^ 64 := by
  intro i x hx
  by_cases h : i = id
  · subst h; rw [upd_self] at hx; exact hl x hx
  · rw [upd_ne _ _ h] at hx; exact hs i x hx

theorem run_sizes {cfg : Cfg} {u : Usage} {s : Buffered} (hs : BufferedInv cfg u s) (x : BCall) (hx : x.Allowed cfg u s) :
    ∀ id, ∀ y ∈ (x.run cfg s).held id, y.hash.length = 64 ∧ y.kind < 2 ^ 64 := by
  have h := hs.sizes
  cases x with
  | new n => simp only [BCall.run]; cases new' cfg s.fs n <;> exact h
  | delete n => simp only [BCall.run]; cases delete' cfg s.fs n <;> exact h
  | open' n =>
    simp only [BCall.run]
    cases open' cfg s.fs s.app n with
    | ok r => obtain ⟨id, a'⟩ := r; exact sizes_upd h id [] (by simp)
    | err => exact h
    | panic => exact h
  | close id =>
    simp only [BCall.run]
    cases close s.app id with
    | ok a' => exact sizes_upd h id [] (by simp)
    | err => exact h
    | panic => exact h
  | write id hash p kind =>
    simp only [BCall.run]
    cases s.app.get id with
    | none => exact h
    | some c =>
      dsimp only
      by_cases h0 : p.len = 0
      · rw [if_pos h0]; exact h
      · rw [if_neg h0]
        refine sizes_upd h id _ ?_
        intro y hy
        rcases List.mem_append.mp hy with hy | hy
        · exact h id y hy
        · rw [List.mem_singleton] at hy
          subst hy
          exact ⟨hx.1, hx.2.1⟩
  | cancel id =>
    simp only [BCall.run]
    cases s.app.get id with
    | none => exact h
    | some c => exact sizes_upd h id [] (by simp)
  | commit id o now => exact h
  | readByHash id hash => simp only [BCall.run]; cases readByHash s.fs s.app id hash <;> exact h
  | restart => intro id y hy; simp [BCall.run] at hy
  | alloc bytes => exact h
  | store arr i b => exact h

theorem BufferedInv.step {cfg : Cfg} {u : Usage} {s : Buffered} (hs : BufferedInv cfg u s) (x : BCall) (hx : x.Allowed cfg u s) :
    BufferedInv cfg u (x.run cfg s) := by
  by_cases hst : ∃ arr i b, x = .store arr i b
  · obtain ⟨arr, i, b, rfl⟩ := hst
    exact hs.store arr i b
  · have hc : x.Careful s := by
      cases x with
      | write id hash p kind => exact hx.2.2
      | store arr i b => exact absurd ⟨arr, i, b, rfl⟩ hst
      | _ => trivial
    obtain ⟨h1, h2⟩ := step_view cfg s hs.valid x hc
    have hz := run_sizes hs x hx
    cases hm : x.meant s with
    | none =>
      rw [hm] at h2
      dsimp only at h2
      rw [Prod.mk.injEq] at h2
      exact ⟨h1, hz, by rw [h2.2]; exact hs.keys, by rw [h2.1, h2.2]; exact hs.reach⟩
    | some y =>
      rw [hm] at h2
      dsimp only at h2
      have hk := keys_call cfg s.fs s.view hs.keys y
      have hsteps := call_steps cfg u s.fs s.view y (by
        cases x with
        | new n => simp only [BCall.meant, Option.some.injEq] at hm; subst hm; exact hx
        | delete n =>
          simp only [BCall.meant, Option.some.injEq] at hm; subst hm
          refine ⟨hx.1, fun ht e he => ?_⟩
          unfold Buffered.view fill at he
          obtain ⟨d, hd, rfl⟩ := List.mem_map.mp he
          exact hx.2 ht d hd
        | open' n => simp only [BCall.meant, Option.some.injEq] at hm; subst hm; exact hx
        | close id => simp only [BCall.meant, Option.some.injEq] at hm; subst hm; trivial
        | write id hash p kind => simp only [BCall.meant, Option.some.injEq] at hm; subst hm; exact ⟨hx.1, hx.2.1⟩
        | cancel id => simp only [BCall.meant, Option.some.injEq] at hm; subst hm; trivial
        | commit id o now => simp only [BCall.meant, Option.some.injEq] at hm; subst hm; exact hx
        | restart => simp only [BCall.meant, Option.some.injEq] at hm; subst hm; trivial
        | readByHash id hash => cases hm
        | alloc bytes => cases hm
        | store arr i b => cases hm)
      rw [← h2] at hsteps hk
      exact ⟨h1, hz, hk, hs.reach.steps hsteps⟩

theorem BufferedInv.run {cfg : Cfg} {u : Usage} (L : List BCall) : ∀ {s : Buffered}, BufferedInv cfg u s → AllowedAll cfg u s L →
    BufferedInv cfg u (s.run cfg L) := by
  induction L with
  | nil => exact fun h _ => h
  | cons x L ih => exact fun h hL => ih (h.step x hL.1) hL.2

theorem Fresh.inv {cfg : Cfg} {u : Usage} {s : Buffered} (h : Fresh cfg u s) : BufferedInv cfg u s := by
  have ha : s.app = [] := h.init.app
  have hh := h.held
  have hv : s.view = [] := by unfold Buffered.view; rw [ha]; rfl
  refine ⟨?_, ?_, by rw [hv]; exact List.nodup_nil, ⟨⟨s.fs, s.app⟩, h.init, ?_⟩⟩
  · intro id x hx; rw [hh] at hx; cases hx
  · intro id x hx; rw [hh] at hx; cases hx
  · rw [hv, ha]; exact .refl _

theorem BufferedReachable.inv {cfg : Cfg} {u : Usage} {s : Buffered} (h : BufferedReachable cfg u s) : BufferedInv cfg u s := by
  obtain ⟨s0, L, h0, hL, rfl⟩ := h
  exact h0.inv.run L hL

end DB
end Rodkina
