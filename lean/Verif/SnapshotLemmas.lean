import Verif.Snapshot
import Verif.DatabaseProps
/-! Lemmas for C94. -/

namespace Rodkina
namespace DB

open Ref

/-- A temporary file of some commit of some application. -/
def Temp (cfg : Nat → Cfg) (names : Name → Prop) (p : Name) : Prop := ∃ l m, names m ∧ Scratch (cfg l) m p

/-- The file exists and is not a temporary file. -/
def Kept (cfg : Nat → Cfg) (names : Name → Prop) (fs : FS) (i : Nat) : Prop :=
  i < fs.next ∧ ∀ p, Temp cfg names p → fs.dir p ≠ some i

/-- What is true of every state. -/
structure MInv (cfg : Nat → Cfg) (names : Name → Prop) (s : Multi) : Prop where
  good : FsGood s.fs
  ctxs : ∀ k, ∀ e ∈ s.apps k, names e.2.name ∧ Kept cfg names s.fs e.2.conn.ino

theorem Apart.not_temp {cfg : Nat → Cfg} {names : Name → Prop} (h : Apart cfg names) (k : Nat) {n : Name} (hn : names n) :
    ¬ Temp cfg names ((cfg k).path n) := by
  rintro ⟨l, m, hm, he | he⟩
  · exact h.dst k l n m hn hm he
  · exact h.bck k l n m hn hm he

theorem kept_of_path {cfg : Nat → Cfg} {names : Name → Prop} (h : Apart cfg names) (k : Nat) {n : Name} (hn : names n) {fs : FS}
    (hg : FsGood fs) {i : Nat} (hd : fs.dir ((cfg k).path n) = some i) : Kept cfg names fs i := by
  refine ⟨hg.1 _ _ hd, ?_⟩
  intro p hp he
  have := hg.2 _ _ _ he hd
  subst this
  exact h.not_temp k hn hp

/-- A call keeps every kept file, if it only touches its own and its temporary files. -/
theorem Kept.touches {cfg : Nat → Cfg} {names : Name → Prop} (h : Apart cfg names) {k : Nat} {n : Name} (hn : names n)
    {fs fs' : FS} (ht : Touches (Own (cfg k) n) (Scratch (cfg k) n) fs fs') {i : Nat} (hi : Kept cfg names fs i) :
    Kept cfg names fs' i ∧ fs'.ino i = fs.ino i := by
  refine ⟨⟨Nat.lt_of_lt_of_le hi.1 ht.next, ?_⟩, ht.ino i hi.1 (fun p hp => hi.2 p ⟨k, n, hn, hp⟩)⟩
  intro p hp he
  by_cases hown : Own (cfg k) n p
  · have hs : Scratch (cfg k) n p := by
      rcases hown with rfl | h1 | h1
      · exact absurd hp (h.not_temp k hn)
      · exact .inl h1
      · exact .inr h1
    rcases ht.src p hs i he with ⟨q, hq, hd⟩ | hge
    · exact hi.2 q ⟨k, n, hn, hq⟩ hd
    · exact absurd hi.1 (by omega)
  · rw [ht.dir p hown] at he
    exact hi.2 p hp he

/-- A call that only changes the contexts. -/
theorem MInv.apps {cfg : Nat → Cfg} {names : Name → Prop} {s : Multi} (h : MInv cfg names s) (k : Nat) (a : App)
    (ha : ∀ e ∈ a, names e.2.name ∧ Kept cfg names s.fs e.2.conn.ino) : MInv cfg names ⟨s.fs, upd s.apps k a⟩ := by
  refine ⟨h.good, ?_⟩
  intro l e he
  by_cases hl : l = k
  · subst hl
    simp only [upd_self] at he
    exact ha e he
  · simp only at he
    rw [upd_ne _ _ hl] at he
    exact h.ctxs l e he

/-- A call that changes the files and perhaps the contexts. -/
theorem MInv.files {cfg : Nat → Cfg} {names : Name → Prop} (hap : Apart cfg names) {s : Multi} (h : MInv cfg names s) (k : Nat)
    {n : Name} (hn : names n) {fs' : FS} (ht : Touches (Own (cfg k) n) (Scratch (cfg k) n) s.fs fs') (a : App)
    (ha : ∀ e ∈ a, e ∈ s.apps k ∨ (names e.2.name ∧ Kept cfg names fs' e.2.conn.ino)) :
    MInv cfg names ⟨fs', upd s.apps k a⟩ := by
  have old : ∀ l, ∀ e ∈ s.apps l, names e.2.name ∧ Kept cfg names fs' e.2.conn.ino := fun l e he =>
    ⟨(h.ctxs l e he).1, ((h.ctxs l e he).2.touches hap hn ht).1⟩
  refine ⟨ht.good h.good, ?_⟩
  intro l e he
  by_cases hl : l = k
  · subst hl
    simp only [upd_self] at he
    rcases ha e he with h1 | h1
    · exact old _ e h1
    · exact h1
  · simp only at he
    rw [upd_ne _ _ hl] at he
    exact old l e he

/-- What one call does to the files and the contexts of the application. -/
theorem call_facts {cfg : Nat → Cfg} {names : Name → Prop} (hap : Apart cfg names) {s : Multi} (h : MInv cfg names s) (k : Nat)
    (x : Call) (hx : x.Names names) : MInv cfg names (s.call cfg k x) ∧
      ∀ i, Kept cfg names s.fs i → Kept cfg names (s.call cfg k x).fs i ∧ (s.call cfg k x).fs.ino i = s.fs.ino i := by
  have same : ∀ a : App, (∀ e ∈ a, names e.2.name ∧ Kept cfg names s.fs e.2.conn.ino) → x.run (cfg k) s.fs (s.apps k) = (s.fs, a) →
      MInv cfg names (s.call cfg k x) ∧
      ∀ i, Kept cfg names s.fs i → Kept cfg names (s.call cfg k x).fs i ∧ (s.call cfg k x).fs.ino i = s.fs.ino i := by
    intro a ha he
    unfold Multi.call
    rw [he]
    exact ⟨h.apps k a ha, fun i hi => ⟨hi, rfl⟩⟩
  have files : ∀ (n : Name) (fs' : FS) (a : App), names n → Touches (Own (cfg k) n) (Scratch (cfg k) n) s.fs fs' →
      (∀ e ∈ a, e ∈ s.apps k ∨ (names e.2.name ∧ Kept cfg names fs' e.2.conn.ino)) → x.run (cfg k) s.fs (s.apps k) = (fs', a) →
      MInv cfg names (s.call cfg k x) ∧
      ∀ i, Kept cfg names s.fs i → Kept cfg names (s.call cfg k x).fs i ∧ (s.call cfg k x).fs.ino i = s.fs.ino i := by
    intro n fs' a hn ht ha he
    unfold Multi.call
    rw [he]
    exact ⟨h.files hap k hn ht a ha, fun i hi => hi.touches hap hn ht⟩
  cases x with
  | new n =>
    cases he : new' (cfg k) s.fs n with
    | ok fs' =>
      refine files n fs' _ hx ?_ (fun e he => .inl he) (by simp only [Call.run, he])
      unfold new' at he
      split at he
      · cases he
      · injection he with he
        subst he
        rename_i hnone
        have hnone : s.fs.dir ((cfg k).path n) = none := by simpa using hnone
        -- a new file: no old file is touched
        have h1 := create_touches s.fs ((cfg k).path n) (Own (cfg k) n) (fun p => p = (cfg k).path n) (.inl rfl) rfl
        refine ⟨h1.next, h1.dir, ?_, ?_, h1.good⟩
        · intro i hi _
          refine h1.ino i hi ?_
          rintro p rfl hd
          rw [hnone] at hd
          cases hd
        · intro p hp j hj
          have hne : p ≠ (cfg k).path n := by
            rintro rfl
            exact hap.not_temp k hx ⟨k, n, hx, hp⟩
          rw [create_dir_ne _ hne] at hj
          exact .inl ⟨p, hp, hj⟩
    | err => exact same _ (h.ctxs k) (by simp only [Call.run, he])
    | panic => exact same _ (h.ctxs k) (by simp only [Call.run, he])
  | delete n =>
    cases he : delete' (cfg k) s.fs n with
    | ok fs' =>
      refine files n fs' _ hx ?_ (fun e he => .inl he) (by simp only [Call.run, he])
      unfold delete' at he
      split at he
      · injection he with he
        subst he
        exact remove_touches _ _ _ _ (.inl rfl)
      · cases he
    | err => exact same _ (h.ctxs k) (by simp only [Call.run, he])
    | panic => exact same _ (h.ctxs k) (by simp only [Call.run, he])
  | open' n =>
    cases he : DB.open' (cfg k) s.fs (s.apps k) n with
    | ok p =>
      obtain ⟨id, a'⟩ := p
      refine same a' ?_ (by simp only [Call.run, he])
      unfold DB.open' at he
      split at he
      · cases he
      obtain ⟨r, hr, he⟩ := Res.bind_eq_ok.mp he
      simp only [Res.pure_eq, Res.ok.injEq, Prod.mk.injEq] at he
      obtain ⟨rfl, rfl⟩ := he
      intro e hm
      rcases mem_set hm with rfl | ⟨hm, _⟩
      · refine ⟨hx, ?_⟩
        unfold retrieveAt at hr
        cases hd : s.fs.dir ((cfg k).path n) with
        | none => simp [FS.file, hd] at hr
        | some i => exact kept_of_path hap k hx h.good hd
      · exact h.ctxs k e hm
    | err => exact same _ (h.ctxs k) (by simp only [Call.run, he])
    | panic => exact same _ (h.ctxs k) (by simp only [Call.run, he])
  | close id =>
    cases he : DB.close (s.apps k) id with
    | ok a' =>
      refine same a' ?_ (by simp only [Call.run, he])
      unfold DB.close at he
      split at he
      · cases he
      · split at he
        · injection he with he
          subst he
          exact fun e hm => h.ctxs k e (mem_delete hm)
        · cases he
    | err => exact same _ (h.ctxs k) (by simp only [Call.run, he])
    | panic => exact same _ (h.ctxs k) (by simp only [Call.run, he])
  | write id hash data kind =>
    cases he : DB.write (s.apps k) id hash data kind with
    | ok a' =>
      refine same a' ?_ (by simp only [Call.run, he])
      obtain ⟨c, hc, L, rfl⟩ : ∃ c, (s.apps k).get id = some c ∧ ∃ L, a' = (s.apps k).set id { c with contentList := L } := by
        unfold DB.write at he
        cases hc : (s.apps k).get id with
        | none => rw [hc] at he; cases he
        | some c =>
          rw [hc] at he
          obtain ⟨y, _, he⟩ := Res.bind_eq_ok.mp he
          injection he with he
          exact ⟨c, rfl, _, he.symm⟩
      intro e hm
      rcases mem_set hm with rfl | ⟨hm, _⟩
      · exact (h.ctxs k (id, c) (get_mem hc) :)
      · exact h.ctxs k e hm
    | err => exact same _ (h.ctxs k) (by simp only [Call.run, he])
    | panic => exact same _ (h.ctxs k) (by simp only [Call.run, he])
  | cancel id =>
    cases he : DB.cancel (s.apps k) id with
    | ok a' =>
      refine same a' ?_ (by simp only [Call.run, he])
      unfold DB.cancel at he
      cases hc : (s.apps k).get id with
      | none => rw [hc] at he; cases he
      | some c =>
        rw [hc] at he
        injection he with he
        subst he
        intro e hm
        rcases mem_set hm with rfl | ⟨hm, _⟩
        · exact (h.ctxs k (id, c) (get_mem hc) :)
        · exact h.ctxs k e hm
    | err => exact same _ (h.ctxs k) (by simp only [Call.run, he])
    | panic => exact same _ (h.ctxs k) (by simp only [Call.run, he])
  | commit id o now =>
    cases hc : (s.apps k).get id with
    | none => exact same _ (h.ctxs k) (by simp only [Call.run, DB.commit, hc])
    | some c =>
      obtain ⟨hname, hk⟩ := h.ctxs k _ (get_mem hc)
      cases hr : updateReference (cfg k) c now with
      | err => exact same _ (h.ctxs k) (by simp only [Call.run, DB.commit, hc, hr])
      | panic => exact same _ (h.ctxs k) (by simp only [Call.run, DB.commit, hc, hr])
      | ok r =>
        have hdist : (cfg k).Distinct c.name :=
          ⟨hap.dst k k _ _ hname hname, hap.bck k k _ _ hname hname, hap.scratch k _ hname⟩
        obtain ⟨ht, hi, hp⟩ := updateDatabase_any (cfg k) o c r s.fs h.good hdist hk.1
          (hk.2 _ ⟨k, _, hname, .inl rfl⟩)
        have he : DB.commit (cfg k) o now s.fs (s.apps k) id =
            finish s.fs (s.apps k) id c r ((updateDatabaseOnFile (cfg k) o c r).run ⟨s.fs, c.conn⟩) := by
          unfold DB.commit
          rw [hc]
          simp only [hr]
        generalize (updateDatabaseOnFile (cfg k) o c r).run ⟨s.fs, c.conn⟩ = res at *
        obtain ⟨out, w⟩ := res
        simp only at ht hi hp
        refine files c.name w.fs (finish s.fs (s.apps k) id c r (out, w)).app hname ht ?_ ?_
        · have fail : ∀ e ∈ (s.apps k).set id { c with conn := w.conn },
              e ∈ s.apps k ∨ (names e.2.name ∧ Kept cfg names w.fs e.2.conn.ino) := by
            intro e hm
            rcases mem_set hm with rfl | ⟨hm, _⟩
            · refine .inr ⟨hname, ?_⟩
              simp only [hi]
              exact (hk.touches hap hname ht).1
            · exact .inl hm
          cases hp with
          | new w j dir fresh hx' dst bck wasOpen early late =>
            intro e hm
            rcases mem_set hm with rfl | ⟨hm, _⟩
            · exact .inr ⟨hname, kept_of_path hap k hname (ht.good h.good) dir⟩
            · exact .inl hm
          | old _ _ hs _ _ => cases out <;> first | exact fail | exact hs.elim
          | gone _ _ _ hs _ _ _ _ _ _ _ => cases out <;> first | exact fail | exact hs.elim
          | late _ _ _ hs _ _ _ _ _ _ _ => cases out <;> first | exact fail | exact hs.elim
        · simp only [Call.run, he]
          cases out <;> rfl
  | restart =>
    refine same [] ?_ rfl
    intro e he
    cases he

theorem run_facts {cfg : Nat → Cfg} {names : Name → Prop} (hap : Apart cfg names) (L : List (Nat × Call)) :
    ∀ {s : Multi}, MInv cfg names s → (∀ x ∈ L, x.2.Names names) → MInv cfg names (s.run cfg L) ∧
      ∀ i, Kept cfg names s.fs i → Kept cfg names (s.run cfg L).fs i ∧ (s.run cfg L).fs.ino i = s.fs.ino i := by
  induction L with
  | nil => exact fun h _ => ⟨h, fun i hi => ⟨hi, rfl⟩⟩
  | cons x L ih =>
    intro s h hx
    obtain ⟨h1, h2⟩ := call_facts hap h x.1 x.2 (hx x (by simp))
    obtain ⟨h3, h4⟩ := ih h1 (fun y hy => hx y (by simp [hy]))
    refine ⟨h3, fun i hi => ?_⟩
    obtain ⟨a, b⟩ := h2 i hi
    obtain ⟨a', b'⟩ := h4 i a
    exact ⟨a', b'.trans b⟩

/-- The context, up to its pending contents. -/
def Like (c c' : Ctx) : Prop := c'.name = c.name ∧ c'.conn = c.conn ∧ c'.reference = c.reference ∧ c'.dataOffset = c.dataOffset

theorem Like.refl (c : Ctx) : Like c c := ⟨rfl, rfl, rfl, rfl⟩

theorem get_delete_ne (a : App) {id id' : Nat} (h : id' ≠ id) : (a.delete id).get id' = a.get id' := by
  have h' : ¬ id = id' := fun e => h e.symm
  simp only [App.get, App.delete]
  congr 1
  induction a with
  | nil => rfl
  | cons e es ih =>
    by_cases he : e.1 = id
    · simp [he, h', ih]
    · rw [List.filter_cons_of_pos (by simp [he]), List.find?_cons, List.find?_cons, ih]

/-- A call that spares a context leaves it as it is. -/
theorem spare_call {cfg : Cfg} {fs : FS} {a : App} {id : Nat} {c : Ctx} (h : a.get id = some c) (x : Call)
    (hx : x.Spares cfg fs a id) : ∃ c', (x.run cfg fs a).2.get id = some c' ∧ Like c c' := by
  have same : (x.run cfg fs a).2 = a → ∃ c', (x.run cfg fs a).2.get id = some c' ∧ Like c c' := by
    intro he
    rw [he]
    exact ⟨c, h, Like.refl c⟩
  cases x with
  | new n => exact same (by simp only [Call.run]; split <;> rfl)
  | delete n => exact same (by simp only [Call.run]; split <;> rfl)
  | open' n =>
    simp only [Call.run] at same ⊢
    cases he : DB.open' cfg fs a n with
    | ok p =>
      obtain ⟨id', a'⟩ := p
      have hne : id' ≠ id := by
        rintro rfl
        exact hx a' he
      unfold DB.open' at he
      split at he
      · cases he
      obtain ⟨r, hr, he⟩ := Res.bind_eq_ok.mp he
      simp only [Res.pure_eq, Res.ok.injEq, Prod.mk.injEq] at he
      obtain ⟨rfl, rfl⟩ := he
      exact ⟨c, by simp only; rw [get_set_ne _ _ (Ne.symm hne)]; exact h, Like.refl c⟩
    | err => exact ⟨c, h, Like.refl c⟩
    | panic => exact ⟨c, h, Like.refl c⟩
  | close j =>
    simp only [Call.run] at same ⊢
    unfold DB.close
    cases hj : a.get j with
    | none => exact ⟨c, h, Like.refl c⟩
    | some d =>
      simp only
      split
      · rename_i hs
        split at hs
        · injection hs with hs
          subst hs
          refine ⟨c, ?_, Like.refl c⟩
          simp only
          rw [get_delete_ne _ (Ne.symm hx)]
          exact h
        · cases hs
      · exact ⟨c, h, Like.refl c⟩
  | write j hash data kind =>
    simp only [Call.run] at same ⊢
    cases he : DB.write a j hash data kind with
    | ok a' =>
      obtain ⟨d, hd, L, rfl⟩ : ∃ d, a.get j = some d ∧ ∃ L, a' = a.set j { d with contentList := L } := by
        unfold DB.write at he
        cases hc : a.get j with
        | none => rw [hc] at he; cases he
        | some d =>
          rw [hc] at he
          obtain ⟨y, _, he⟩ := Res.bind_eq_ok.mp he
          injection he with he
          exact ⟨d, rfl, _, he.symm⟩
      by_cases hj : id = j
      · subst hj
        rw [h] at hd
        injection hd with hd
        subst hd
        exact ⟨_, get_set_self _ _ _, rfl, rfl, rfl, rfl⟩
      · exact ⟨c, by simp only; rw [get_set_ne _ _ hj]; exact h, Like.refl c⟩
    | err => exact ⟨c, h, Like.refl c⟩
    | panic => exact ⟨c, h, Like.refl c⟩
  | cancel j =>
    simp only [Call.run] at same ⊢
    unfold DB.cancel
    cases hd : a.get j with
    | none => exact ⟨c, h, Like.refl c⟩
    | some d =>
      simp only
      by_cases hj : id = j
      · subst hj
        rw [h] at hd
        injection hd with hd
        subst hd
        exact ⟨_, get_set_self _ _ _, rfl, rfl, rfl, rfl⟩
      · exact ⟨c, by rw [get_set_ne _ _ hj]; exact h, Like.refl c⟩
  | commit j o now =>
    simp only [Call.run] at same ⊢
    unfold DB.commit
    cases hd : a.get j with
    | none => exact ⟨c, h, Like.refl c⟩
    | some d =>
      simp only
      cases updateReference cfg d now with
      | err => exact ⟨c, h, Like.refl c⟩
      | panic => exact ⟨c, h, Like.refl c⟩
      | ok r =>
        simp only
        generalize (updateDatabaseOnFile cfg o d r).run ⟨fs, d.conn⟩ = res
        obtain ⟨out, w⟩ := res
        have hj : id ≠ j := Ne.symm hx
        refine ⟨c, ?_, Like.refl c⟩
        cases out with
        | ok p => simp only [finish]; rw [get_set_ne _ _ hj]; exact h
        | err => simp only [finish]; rw [get_set_ne _ _ hj]; exact h
        | panic => simp only [finish]; rw [get_set_ne _ _ hj]; exact h
        | crash => simp only [finish]; rw [get_set_ne _ _ hj]; exact h
        | hang => simp only [finish]; rw [get_set_ne _ _ hj]; exact h
  | restart => exact hx.elim

theorem spare_run {cfg : Nat → Cfg} {k id : Nat} (L : List (Nat × Call)) : ∀ {s : Multi} {c : Ctx},
    (s.apps k).get id = some c → SparesAll cfg k id s L → ∃ c', ((s.run cfg L).apps k).get id = some c' ∧ Like c c' := by
  induction L with
  | nil => exact fun h _ => ⟨_, h, Like.refl _⟩
  | cons x L ih =>
    intro s c h hs
    have h1 : ∃ c', ((s.call cfg x.1 x.2).apps k).get id = some c' ∧ Like c c' := by
      by_cases hk : x.1 = k
      · subst hk
        simp only [Multi.call, upd_self]
        exact spare_call h x.2 (hs.1 rfl)
      · simp only [Multi.call]
        rw [upd_ne _ _ (Ne.symm hk)]
        exact ⟨c, h, Like.refl c⟩
    obtain ⟨c1, e1, l1⟩ := h1
    obtain ⟨c2, e2, l2⟩ := ih e1 hs.2
    exact ⟨c2, e2, l2.1.trans l1.1, l2.2.1.trans l1.2.1, l2.2.2.1.trans l1.2.2.1, l2.2.2.2.trans l1.2.2.2⟩

end DB
end Rodkina
