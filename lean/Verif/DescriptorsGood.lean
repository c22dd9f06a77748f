import Verif.DescriptorsLemmas
/-!
# The descriptors and the contexts: an invariant of all histories
-/

namespace Rodkina
namespace Fd

open DB Ref

/-- The number of contexts whose file is open. -/
def handles (a : App) : Nat := (a.filter (fun e => e.2.conn.isOpen)).length

/-- Each context with an open file has a descriptor of its own. -/
structure Good (s : Proc) : Prop where
  fresh : Fresh s.tab
  nodup : s.tab.live.Nodup
  keys : (s.app.map (·.1)).Nodup
  owned : ∀ id c, s.app.get id = some c → c.conn.isOpen = true → s.fd id ∈ s.tab.live
  inj : ∀ i j c d, s.app.get i = some c → s.app.get j = some d → c.conn.isOpen = true → d.conn.isOpen = true → s.fd i = s.fd j → i = j

/-- The context has its file open. -/
def openAt (a : App) (id : Nat) : Nat :=
  match a.get id with
  | some c => if c.conn.isOpen then 1 else 0
  | none => 0

theorem handles_set (a : App) (id : Nat) (c : Ctx) : handles (a.set id c) = handles (a.delete id) + (if c.conn.isOpen then 1 else 0) := by
  unfold handles App.set App.delete
  rw [List.filter_cons]
  cases h : c.conn.isOpen <;> simp [h]

theorem get_none_of {a : App} {id : Nat} (h : id ∉ a.map (·.1)) : a.get id = none := by
  unfold App.get
  rw [Option.map_eq_none_iff, List.find?_eq_none]
  intro e he hx
  exact h (List.mem_map.2 ⟨e, he, by simpa using hx⟩)

theorem delete_of_not_mem {a : App} {id : Nat} (h : id ∉ a.map (·.1)) : a.delete id = a := by
  unfold App.delete
  rw [List.filter_eq_self]
  intro e he
  have : e.1 ≠ id := fun hx => h (List.mem_map.2 ⟨e, he, hx⟩)
  simp [this]

theorem handles_delete {a : App} (hk : (a.map (·.1)).Nodup) (id : Nat) : handles a = handles (a.delete id) + openAt a id := by
  induction a with
  | nil => rfl
  | cons e a ih =>
    have hk' : (a.map (·.1)).Nodup := (List.nodup_cons.1 hk).2
    have hn : e.1 ∉ a.map (·.1) := (List.nodup_cons.1 hk).1
    have ih := ih hk'
    by_cases h : e.1 = id
    · subst h
      have h1 : App.delete (e :: a) e.1 = a := by
        have := delete_of_not_mem hn
        unfold App.delete at this ⊢
        rw [List.filter_cons_of_neg (by simp), this]
      have h2 : App.get (e :: a) e.1 = some e.2 := by simp [App.get]
      rw [h1]
      unfold openAt
      rw [h2]
      unfold handles
      rw [List.filter_cons]
      cases h3 : e.2.conn.isOpen <;> simp [h3]
    · have h1 : App.delete (e :: a) id = e :: App.delete a id := by
        unfold App.delete
        rw [List.filter_cons_of_pos (by simpa using h)]
      have h2 : App.get (e :: a) id = App.get a id := by simp [App.get, h]
      rw [h1]
      unfold openAt at ih ⊢
      rw [h2]
      unfold handles at ih ⊢
      rw [List.filter_cons, List.filter_cons]
      cases h3 : e.2.conn.isOpen <;> simp only [if_true, if_false, List.length_cons, Bool.false_eq_true] <;> omega

theorem keys_delete {a : App} (hk : (a.map (·.1)).Nodup) (id : Nat) : ((a.delete id).map (·.1)).Nodup :=
  hk.sublist (List.Sublist.map _ List.filter_sublist)

theorem keys_set {a : App} (hk : (a.map (·.1)).Nodup) (id : Nat) (c : Ctx) : ((a.set id c).map (·.1)).Nodup := by
  unfold App.set
  rw [List.map_cons, List.nodup_cons]
  refine ⟨?_, keys_delete hk id⟩
  intro h
  obtain ⟨e, he, h2⟩ := List.mem_map.1 h
  have := (List.mem_filter.1 he).2
  simp at this
  exact this h2

theorem get_delete_other (a : App) {id j : Nat} (h : j ≠ id) : (a.delete id).get j = a.get j := by
  have := get_set_ne a (c := ⟨[], ⟨0, 0, true⟩, none, 0, []⟩) h
  rw [← this]
  unfold App.set App.get
  rw [List.find?_cons_of_neg (by simpa using (Ne.symm h))]
  rfl

theorem length_filter_ne {l : List Nat} (h : l.Nodup) {d : Nat} (hd : d ∈ l) : (l.filter (fun e => !(e == d))).length + 1 = l.length := by
  induction l with
  | nil => cases hd
  | cons a l ih =>
    obtain ⟨h1, h2⟩ := List.nodup_cons.1 h
    by_cases ha : a = d
    · subst ha
      rw [List.filter_cons_of_neg (by simp)]
      have : l.filter (fun e => !(e == a)) = l := by
        rw [List.filter_eq_self]; intro e he; have : e ≠ a := fun hx => h1 (hx ▸ he); simpa using this
      rw [this, List.length_cons]
    · rw [List.filter_cons_of_pos (by simpa using ha), List.length_cons, List.length_cons]
      rcases List.mem_cons.1 hd with rfl | hd
      · exact absurd rfl ha
      · have := ih h2 hd; omega

theorem mem_filter_ne {l : List Nat} {d e : Nat} : e ∈ l.filter (fun e => !(e == d)) ↔ e ∈ l ∧ e ≠ d := by simp

/-- What a call did: the invariant, the descriptors against the contexts, and how many were open at most. -/
structure Effect (s s' : Proc) (k : Nat) : Prop where
  good : Good s'
  count : s'.tab.live.length + handles s.app = s.tab.live.length + handles s'.app + k
  next : s.tab.next ≤ s'.tab.next
  peak : s'.tab.peak ≤ max s.tab.peak (s.tab.live.length + 2)
  kept : ∀ d ∈ s.tab.live, d ∉ s'.tab.live → ∃ id c, s.app.get id = some c ∧ c.conn.isOpen = true ∧ s.fd id = d

theorem Effect.refl {s : Proc} (h : Good s) : Effect s s 0 :=
  ⟨h, rfl, Nat.le_refl _, Nat.le_max_left _ _, fun d h1 h2 => absurd h1 h2⟩

/-- A context is replaced by one with the same handle state, the rest is as before. -/
theorem effect_same {s : Proc} (h : Good s) {id : Nat} {c c' : Ctx} (hg : s.app.get id = some c) (hc : c'.conn.isOpen = c.conn.isOpen)
    (fs : FS) : Effect s ⟨fs, s.app.set id c', s.tab, s.fd⟩ 0 := by
  have hget : ∀ j d, (s.app.set id c').get j = some d → d.conn.isOpen = true → ∃ d', s.app.get j = some d' ∧ d'.conn.isOpen = true := by
    intro j d hj hd
    by_cases hji : j = id
    · subst hji
      rw [get_set_self] at hj
      injection hj with hj
      subst hj
      exact ⟨c, hg, hc ▸ hd⟩
    · rw [get_set_ne _ _ hji] at hj
      exact ⟨d, hj, hd⟩
  refine ⟨⟨h.fresh, h.nodup, keys_set h.keys _ _, ?_, ?_⟩, ?_, Nat.le_refl _, Nat.le_max_left _ _, fun d h1 h2 => absurd h1 h2⟩
  · intro j d hj hd
    obtain ⟨d', h1, h2⟩ := hget j d hj hd
    exact h.owned j d' h1 h2
  · intro i j d e hi hj hd he heq
    obtain ⟨d', h1, h2⟩ := hget i d hi hd
    obtain ⟨e', h3, h4⟩ := hget j e hj he
    exact h.inj i j d' e' h1 h3 h2 h4 heq
  · show _ + _ = _ + handles (s.app.set id c') + 0
    rw [handles_set, handles_delete h.keys id, openAt, hg, hc]
    rfl

/-- The descriptors change only by those not owned by a context. -/
theorem effect_more {s : Proc} {s' : Proc} (h : Effect s s' 0) (t : Tab) (d : Nat) (hlive : t.live = d :: s'.tab.live) (hd : s'.tab.next ≤ d)
    (hd' : d < t.next) (hp : t.peak ≤ max s.tab.peak (s.tab.live.length + 2)) : Effect s { s' with tab := t } 1 := by
  refine ⟨⟨?_, ?_, h.good.keys, ?_, h.good.inj⟩, ?_, ?_, hp, ?_⟩
  · intro e he
    show e < t.next
    have he : e ∈ t.live := he
    rw [hlive] at he
    rcases List.mem_cons.1 he with rfl | he
    · exact hd'
    · have := h.good.fresh e he; omega
  · show t.live.Nodup
    rw [hlive, List.nodup_cons]
    exact ⟨fun hx => by have := h.good.fresh d hx; omega, h.good.nodup⟩
  · intro id c hg hc
    show _ ∈ t.live
    rw [hlive]
    exact List.mem_cons_of_mem _ (h.good.owned id c hg hc)
  · have := h.count
    show t.live.length + _ = _
    rw [hlive, List.length_cons]
    show _ = _ + handles s'.app + 1
    omega
  · have := h.next
    show _ ≤ t.next
    omega
  · intro e h1 h2
    have h2 : e ∉ t.live := h2
    rw [hlive] at h2
    exact h.kept e h1 (fun hx => h2 (List.mem_cons_of_mem _ hx))

/-- The table changed, but the same descriptors are open. -/
theorem effect_tab {s s' : Proc} {k : Nat} (h : Effect s s' k) (t : Tab) (hlive : t.live = s'.tab.live) (hn : s'.tab.next ≤ t.next)
    (hp : t.peak ≤ max s.tab.peak (s.tab.live.length + 2)) : Effect s { s' with tab := t } k := by
  refine ⟨⟨?_, ?_, h.good.keys, ?_, h.good.inj⟩, ?_, Nat.le_trans h.next hn, hp, ?_⟩
  · intro e he
    have he : e ∈ t.live := he
    rw [hlive] at he
    exact Nat.lt_of_lt_of_le (h.good.fresh e he) hn
  · show t.live.Nodup
    rw [hlive]; exact h.good.nodup
  · intro id c hg hc
    show _ ∈ t.live
    rw [hlive]; exact h.good.owned id c hg hc
  · show t.live.length + _ = _
    rw [hlive]; exact h.count
  · intro e h1 h2
    have h2 : e ∉ t.live := h2
    rw [hlive] at h2
    exact h.kept e h1 h2

/-- The file of a context is closed, and the context is dropped or keeps a closed handle. -/
theorem effect_closed {s : Proc} (h : Good s) {id : Nat} {c : Ctx} (hg : s.app.get id = some c) (hc : c.conn.isOpen = true) (fs : FS)
    (a : App) (hk : (a.map (·.1)).Nodup) (hother : ∀ j, j ≠ id → a.get j = s.app.get j)
    (hself : ∀ d, a.get id = some d → d.conn.isOpen = false) (hh : handles a = handles (s.app.delete id)) :
    Effect s ⟨fs, a, s.tab.closed (s.fd id), s.fd⟩ 0 := by
  have hget : ∀ j d, a.get j = some d → d.conn.isOpen = true → j ≠ id ∧ s.app.get j = some d := by
    intro j d hj hd
    have : j ≠ id := by rintro rfl; rw [hself d hj] at hd; cases hd
    exact ⟨this, by rw [← hother j this]; exact hj⟩
  have hmem := h.owned id c hg hc
  refine ⟨⟨closed_fresh h.fresh _, h.nodup.filter _, hk, ?_, ?_⟩, ?_, Nat.le_refl _, Nat.le_max_left _ _, ?_⟩
  · intro j d hj hd
    obtain ⟨h1, h2⟩ := hget j d hj hd
    exact mem_filter_ne.2 ⟨h.owned j d h2 hd, fun hx => h1 (h.inj j id d c h2 hg hd hc hx)⟩
  · intro i j d e hi hj hd he heq
    exact h.inj i j d e (hget i d hi hd).2 (hget j e hj he).2 hd he heq
  · show (s.tab.live.filter _).length + _ = _ + handles a + 0
    have := length_filter_ne h.nodup hmem
    have h2 := handles_delete h.keys id
    unfold openAt at h2
    rw [hg] at h2
    simp only [hc, if_true] at h2
    rw [hh]
    omega
  · intro d h1 h2
    by_cases hd : d = s.fd id
    · exact ⟨id, c, hg, hc, hd.symm⟩
    · exact absurd (mem_filter_ne.2 ⟨h1, hd⟩) h2

/-- A context gets a new descriptor. -/
theorem effect_opened {s s' : Proc} (h : Effect s s' 0) (id : Nat) (c : Ctx) (t : Tab) (d : Nat) (hc : c.conn.isOpen = true)
    (hd : s'.tab.next ≤ d) (hd' : d < t.next) (hlive : t.live = d :: s'.tab.live) (hp : t.peak ≤ max s.tab.peak (s.tab.live.length + 2)) :
    Effect s ⟨s'.fs, s'.app.set id c, t, upd s'.fd id d⟩ (openAt s'.app id) := by
  have hfd : ∀ j, j ≠ id → upd s'.fd id d j = s'.fd j := fun j hj => by simp [upd, hj]
  have hself : upd s'.fd id d id = d := by simp [upd]
  have hnot : d ∉ s'.tab.live := fun hx => by have := h.good.fresh d hx; omega
  refine ⟨⟨?_, ?_, keys_set h.good.keys _ _, ?_, ?_⟩, ?_, ?_, hp, ?_⟩
  · intro e he
    show e < t.next
    have he : e ∈ t.live := he
    rw [hlive] at he
    rcases List.mem_cons.1 he with rfl | he
    · exact hd'
    · have := h.good.fresh e he; omega
  · show t.live.Nodup
    rw [hlive, List.nodup_cons]
    exact ⟨hnot, h.good.nodup⟩
  · intro j e hj he
    show _ ∈ t.live
    rw [hlive]
    by_cases hji : j = id
    · subst hji
      show upd s'.fd j d j ∈ _
      rw [hself]
      exact List.mem_cons_self ..
    · show upd s'.fd id d j ∈ _
      rw [hfd j hji]
      have hj : (s'.app.set id c).get j = some e := hj
      rw [get_set_ne _ _ hji] at hj
      exact List.mem_cons_of_mem _ (h.good.owned j e hj he)
  · intro i j e f hi hj he hf heq
    have hi : (s'.app.set id c).get i = some e := hi
    have hj : (s'.app.set id c).get j = some f := hj
    have heq : upd s'.fd id d i = upd s'.fd id d j := heq
    by_cases h1 : i = id
    · by_cases h2 : j = id
      · rw [h1, h2]
      · rw [get_set_ne _ _ h2] at hj
        rw [h1, hself, hfd j h2] at heq
        exact absurd (h.good.owned j f hj hf) (heq ▸ hnot)
    · rw [get_set_ne _ _ h1] at hi
      by_cases h2 : j = id
      · rw [h2, hself, hfd i h1] at heq
        exact absurd (h.good.owned i e hi he) (heq ▸ hnot)
      · rw [get_set_ne _ _ h2] at hj
        rw [hfd i h1, hfd j h2] at heq
        exact h.good.inj i j e f hi hj he hf heq
  · have := h.count
    have h2 := handles_delete h.good.keys id
    show t.live.length + _ = _ + handles (s'.app.set id c) + _
    rw [hlive, List.length_cons, handles_set, hc]
    simp only [if_true]
    omega
  · have := h.next
    show _ ≤ t.next
    omega
  · intro e h1 h2
    have h2 : e ∉ t.live := h2
    rw [hlive] at h2
    exact h.kept e h1 (fun hx => h2 (List.mem_cons_of_mem _ hx))

end Fd
end Rodkina
