import Verif.CoverageLemmas
import Verif.AstJust

/-!
# Lemmas: positions
-/

namespace Rodkina.Ast

theorem lookup_filter_ne (m : Positions) (p q : Pos) (h : q ≠ p) :
    List.lookup q (m.filter (fun e => e.1 != p)) = m.lookup q := by
  induction m with
  | nil => rfl
  | cons e m ih =>
    obtain ⟨k, v⟩ := e
    simp only [List.filter_cons, List.lookup_cons]
    by_cases hk : k = p
    · subst hk
      simp only [bne_self_eq_false, Bool.false_eq_true, if_false, ih]
      rw [show (q == k) = false from by simpa using h]
    · rw [if_pos (by simpa using hk), List.lookup_cons, ih]

theorem lookup_put (m : Positions) (p q : Pos) (v : String) :
    (m.put p v).lookup q = if q = p then some v else m.lookup q := by
  unfold Positions.put
  rw [List.lookup_cons]
  by_cases h : q = p
  · simp [h]
  · rw [if_neg h, show (q == p) = false from by simpa using h]
    exact lookup_filter_ne m p q h

theorem lookup_add (m : Positions) (p q : Pos) (v : String) :
    ((m.add p v).lookup q).isSome ↔ (m.lookup q).isSome ∨ q = p := by
  unfold Positions.add
  split
  · rename_i h
    constructor
    · exact .inl
    · rintro (h' | rfl)
      · exact h'
      · exact h
  · rw [lookup_put]
    split
    · simp [*]
    · simp [*]

theorem lookup_filter_key (m : Positions) (f : Pos → Bool) (q : Pos) :
    List.lookup q (m.filter (fun e => f e.1)) = if f q then m.lookup q else none := by
  induction m with
  | nil => simp
  | cons e m ih =>
    obtain ⟨k, v⟩ := e
    simp only [List.filter_cons, List.lookup_cons]
    by_cases hk : q = k
    · subst hk
      by_cases hf : f q <;> simp [hf, ih]
    · have hk' : (q == k) = false := by simpa using hk
      rw [hk']
      by_cases hf : f k
      · rw [if_pos hf, List.lookup_cons, hk', ih]
      · rw [if_neg hf, ih]

/-! ## The elements of a grammar -/

/-- Element `p` of token `u` is called `v`. -/
def At (u : Token) (p : Pos) (v : String) : Prop :=
  u.name = p.1 ∧ ∃ l, u.lines[p.2.1]? = some l ∧
    ∃ min max c, l.containers[p.2.2]? = some (.element min max c) ∧ c.name = v

/-- Some token below `t` has the element. -/
def ElT (t : Token) (p : Pos) (v : String) : Prop := ∃ u chs, InTok t [] u chs ∧ At u p v

/-- Some token in the content has the element. -/
def ElC (c : Content) (p : Pos) (v : String) : Prop :=
  match c with
  | .token u => ElT u p v
  | .everything _ ex esc => ElT ex p v ∨ ∃ u, esc = some u ∧ ElT u p v
  | .external _ g => ElementAt g p v
  | .value _ _ => False
  | .recursive _ => False

/-- Containers, numbered from `off`. -/
def ElCs (name : String) (i off : Nat) (cs : List Container) (p : Pos) (v : String) : Prop :=
  ∃ j min max c, cs[j]? = some (Container.element min max c) ∧
    ((p = (name, i, off + j) ∧ v = c.name) ∨ ElC c p v)

/-- Lines, numbered from `off`. -/
def ElLs (name : String) (off : Nat) (ls : List GLine) (p : Pos) (v : String) : Prop :=
  ∃ i l, ls[i]? = some l ∧ ElCs name (off + i) 0 l.containers p v

/-- `f` adds the positions of `E`. -/
structure EPost (E : Pos → String → Prop) (f : Positions → Positions) : Prop where
  sound : ∀ m p v, (f m).lookup p = some v → m.lookup p = some v ∨ E p v
  keep : ∀ m p, (m.lookup p).isSome → ((f m).lookup p).isSome
  full : ∀ m p v, E p v → ((f m).lookup p).isSome

theorem EPost.id {E : Pos → String → Prop} (h : ∀ p v, ¬ E p v) : EPost E (fun m => m) :=
  ⟨fun _ _ _ h => .inl h, fun _ _ h => h, fun _ p v hE => absurd hE (h p v)⟩

theorem EPost.comp {E E' E'' : Pos → String → Prop} {f f' : Positions → Positions} (h : EPost E f)
    (h' : EPost E' f') (he : ∀ p v, E'' p v ↔ E p v ∨ E' p v) : EPost E'' (fun m => f' (f m)) := by
  constructor
  · intro m p v hx
    rcases h'.sound _ p v hx with hx | hx
    · rcases h.sound _ p v hx with hx | hx
      · exact .inl hx
      · exact .inr ((he p v).mpr (.inl hx))
    · exact .inr ((he p v).mpr (.inr hx))
  · intro m p hx
    exact h'.keep _ p (h.keep _ p hx)
  · intro m p v hx
    rcases (he p v).mp hx with hx | hx
    · exact h'.keep _ p (h.full m p v hx)
    · exact h'.full _ p v hx

theorem EPost.put (q : Pos) (w : String) : EPost (fun p v => p = q ∧ v = w) (fun m => m.put q w) := by
  constructor
  · intro m p v
    rw [lookup_put]
    split
    · rintro h; cases h; exact .inr ⟨by assumption, rfl⟩
    · exact .inl
  · intro m p h
    rw [lookup_put]
    split
    · rfl
    · exact h
  · rintro m p v ⟨rfl, rfl⟩
    simp [lookup_put]

theorem EPost.congr {E E' : Pos → String → Prop} {f : Positions → Positions} (h : EPost E f)
    (he : ∀ p v, E' p v ↔ E p v) : EPost E' f := by
  have : E' = E := by funext p v; exact propext (he p v)
  rw [this]; exact h

theorem InTok.change {t u : Token} {chs uchs : List Channel} (h : InTok t chs u uchs) (chs' : List Channel) :
    ∃ uchs', InTok t chs' u uchs' := by
  rcases h with ⟨hb, rfl⟩ | h
  · exact ⟨chs', .inl ⟨hb, rfl⟩⟩
  · exact ⟨uchs, .inr h⟩

theorem elT_iff (name : String) (ls : List GLine) (ss : List Suite) (p : Pos) (v : String) :
    ElT (.mk name ls ss) p v ↔ ElLs name 0 ls p v := by
  constructor
  · rintro ⟨u, chs, hin, hat⟩
    have key : ∀ w, Below (.mk name ls ss) w → (∀ (hw : w = .mk name ls ss), ElLs name 0 ls p v) →
        (∀ x, Child (.mk name ls ss) x → Below x w → ElT x p v) → ElLs name 0 ls p v := by
      intro w hb h1 h2
      cases hb with
      | refl => exact h1 rfl
      | step _ x _ hc hb =>
        have hx := h2 x hc hb
        cases hc with
        | token l min max hl hc =>
          obtain ⟨i, hi⟩ := List.getElem?_of_mem hl
          obtain ⟨j, hj⟩ := List.getElem?_of_mem hc
          exact ⟨i, l, hi, j, min, max, _, hj, .inr hx⟩
        | exception l min max n esc hl hc =>
          obtain ⟨i, hi⟩ := List.getElem?_of_mem hl
          obtain ⟨j, hj⟩ := List.getElem?_of_mem hc
          exact ⟨i, l, hi, j, min, max, _, hj, .inr (.inl hx)⟩
        | escape l min max n ex hl hc =>
          obtain ⟨i, hi⟩ := List.getElem?_of_mem hl
          obtain ⟨j, hj⟩ := List.getElem?_of_mem hc
          exact ⟨i, l, hi, j, min, max, _, hj, .inr (.inr ⟨x, rfl, hx⟩)⟩
    rcases hin with ⟨hb, rfl⟩ | ⟨w, h, hb, he, ht⟩
    · refine key u hb ?_ ?_
      · rintro rfl
        obtain ⟨hn, l, hl, min, max, c, hc, hv⟩ := hat
        obtain ⟨p1, p2, p3⟩ := p
        simp only [Token.name] at hn
        subst hn
        exact ⟨p2, l, hl, p3, min, max, c, hc, .inl ⟨by simp, hv.symm⟩⟩
      · intro x _ hb
        exact ⟨u, [], .inl ⟨hb, rfl⟩, hat⟩
    · refine key w hb ?_ ?_
      · rintro rfl
        obtain ⟨l, hl, min, max, n, hc⟩ := he
        obtain ⟨i, hi⟩ := List.getElem?_of_mem hl
        obtain ⟨j, hj⟩ := List.getElem?_of_mem hc
        exact ⟨i, l, hi, j, min, max, _, hj, .inr ⟨u, chs, ht, hat⟩⟩
      · intro x _ hb
        exact ⟨u, chs, .inr ⟨w, h, hb, he, ht⟩, hat⟩
  · rintro ⟨i, l, hl, j, min, max, c, hc, h⟩
    have hlm := List.mem_of_getElem? hl
    have hcm := List.mem_of_getElem? hc
    rcases h with ⟨rfl, rfl⟩ | h
    · exact ⟨_, [], .inl ⟨.refl _, rfl⟩, rfl, l, by simpa [Token.lines] using hl, min, max, c, by simpa using hc, rfl⟩
    · have lift : ∀ x, Child (.mk name ls ss) x → ElT x p v → ElT (.mk name ls ss) p v := by
        rintro x hx ⟨u, chs, hin, hat⟩
        exact ⟨u, chs, InTok.child hx hin, hat⟩
      cases c with
      | token u => exact lift u (.token _ u l min max hlm hcm) h
      | everything n ex esc =>
        rcases h with h | ⟨u, rfl, h⟩
        · exact lift ex (.exception _ ex l min max n esc hlm hcm) h
        · exact lift u (.escape _ u l min max n ex hlm hcm) h
      | external n g =>
        obtain ⟨u, chs, ht, hat⟩ := h
        exact ⟨u, chs, InTok.external ⟨l, hlm, min, max, n, hcm⟩ ht, hat⟩
      | value n b => exact absurd h id
      | recursive n => exact absurd h id

theorem elCs_cons (name : String) (i off min : Nat) (max : Option Nat) (c : Content) (cs : List Container)
    (p : Pos) (v : String) : ElCs name i off (.element min max c :: cs) p v ↔
      (((p = (name, i, off) ∧ v = c.name) ∨ ElC c p v) ∨ ElCs name i (off + 1) cs p v) := by
  constructor
  · rintro ⟨j, mn, mx, k, hk, h⟩
    cases j with
    | zero =>
      simp only [List.getElem?_cons_zero, Option.some.injEq, Container.element.injEq] at hk
      obtain ⟨rfl, rfl, rfl⟩ := hk
      exact .inl (by simpa using h)
    | succ j =>
      simp only [List.getElem?_cons_succ] at hk
      exact .inr ⟨j, mn, mx, k, hk, by simpa [Nat.add_assoc, Nat.add_comm 1 j] using h⟩
  · rintro (h | ⟨j, mn, mx, k, hk, h⟩)
    · exact ⟨0, min, max, c, rfl, by simpa using h⟩
    · exact ⟨j + 1, mn, mx, k, hk, by simpa [Nat.add_assoc, Nat.add_comm 1 j] using h⟩

theorem elCs_compose (name : String) (i off : Nat) (k : Compose) (cs : List Container)
    (p : Pos) (v : String) :
    ElCs name i off (.compose k :: cs) p v ↔ ElCs name i (off + 1) cs p v := by
  constructor
  · rintro ⟨j, mn, mx, k, hk, h⟩
    cases j with
    | zero => simp at hk
    | succ j =>
      simp only [List.getElem?_cons_succ] at hk
      exact ⟨j, mn, mx, k, hk, by simpa [Nat.add_assoc, Nat.add_comm 1 j] using h⟩
  · rintro ⟨j, mn, mx, k, hk, h⟩
    exact ⟨j + 1, mn, mx, k, hk, by simpa [Nat.add_assoc, Nat.add_comm 1 j] using h⟩

theorem elLs_cons (name : String) (off : Nat) (l : GLine) (ls : List GLine) (p : Pos) (v : String) :
    ElLs name off (l :: ls) p v ↔ ElCs name off 0 l.containers p v ∨ ElLs name (off + 1) ls p v := by
  constructor
  · rintro ⟨i, g, hg, h⟩
    cases i with
    | zero =>
      simp only [List.getElem?_cons_zero, Option.some.injEq] at hg
      subst hg
      exact .inl (by simpa using h)
    | succ i => exact .inr ⟨i, g, by simpa using hg, by simpa [Nat.add_assoc, Nat.add_comm 1 i] using h⟩
  · rintro (h | ⟨i, g, hg, h⟩)
    · exact ⟨0, l, rfl, by simpa using h⟩
    · exact ⟨i + 1, g, by simpa using hg, by simpa [Nat.add_assoc, Nat.add_comm 1 i] using h⟩

theorem elementAt_iff (root : Token) (chs : List Channel) (p : Pos) (v : String) :
    ElementAt (.mk root chs) p v ↔ ElT root p v ∨ ∃ c ∈ chs, ElT c.token p v := by
  constructor
  · rintro ⟨u, uchs, ⟨h, hs, hl⟩, hat⟩
    cases hs with
    | refl =>
      rcases hl with ⟨hb, rfl⟩ | ⟨c, hc, hb, rfl⟩
      · exact .inl ⟨u, [], .inl ⟨hb, rfl⟩, hat⟩
      · exact .inr ⟨c, hc, u, [], .inl ⟨hb, rfl⟩, hat⟩
    | step _ k _ w wchs hw he hs =>
      rcases hw with ⟨hb, rfl⟩ | ⟨c, hc, hb, rfl⟩
      · exact .inl ⟨u, uchs, .inr ⟨w, k, hb, he, h, hs, hl⟩, hat⟩
      · exact .inr ⟨c, hc, u, uchs, .inr ⟨w, k, hb, he, h, hs, hl⟩, hat⟩
  · rintro (⟨u, uchs, hin, hat⟩ | ⟨c, hc, u, uchs, hin, hat⟩)
    · obtain ⟨x, hx⟩ := hin.change chs
      exact ⟨u, x, TokenOf.root (g := .mk root chs) hx, hat⟩
    · exact ⟨u, uchs, TokenOf.channel (g := .mk root chs) hc hin, hat⟩

mutual
theorem epost_token : ∀ (t : Token), EPost (ElT t) (elementsToken t)
  | .mk name lines suites => by
    rw [show elementsToken (.mk name lines suites) = elementsLines name 0 lines from by
      funext m; rw [elementsToken]]
    exact (epost_lines name lines 0).congr (elT_iff name lines suites)
termination_by t => (sizeOf t, 0)
decreasing_by all_goals simp_wf; (try omega)

theorem epost_lines (name : String) : ∀ (ls : List GLine) (i : Nat),
    EPost (ElLs name i ls) (elementsLines name i ls)
  | [], i => by
    rw [show elementsLines name i [] = (fun m => m) from by funext m; rw [elementsLines]]
    exact EPost.id (by rintro p v ⟨i, l, hl, _⟩; simp at hl)
  | .mk cs :: ls, i => by
    rw [show elementsLines name i (.mk cs :: ls) =
      (fun m => elementsLines name (i + 1) ls (elementsContainers name i 0 cs m)) from by
        funext m; rw [elementsLines]]
    exact (epost_containers name i cs 0).comp (epost_lines name ls (i + 1)) (elLs_cons name i (.mk cs) ls)
termination_by ls => (sizeOf ls, 0)
decreasing_by all_goals simp_wf; (try omega)

theorem epost_containers (name : String) (i : Nat) : ∀ (cs : List Container) (j : Nat),
    EPost (ElCs name i j cs) (elementsContainers name i j cs)
  | [], j => by
    rw [show elementsContainers name i j [] = (fun m => m) from by funext m; rw [elementsContainers]]
    exact EPost.id (by rintro p v ⟨i, a, b, l, hl, _⟩; simp at hl)
  | .compose k :: cs, j => by
    rw [show elementsContainers name i j (.compose k :: cs) = elementsContainers name i (j + 1) cs from by
      funext m; rw [elementsContainers]]
    exact (epost_containers name i cs (j + 1)).congr (elCs_compose name i j k cs)
  | .element min max c :: cs, j => by
    rw [show elementsContainers name i j (.element min max c :: cs) = (fun m =>
      elementsContainers name i (j + 1) cs (elementsContent c (m.put (name, i, j) c.name))) from by
        funext m; rw [elementsContainers]]
    exact ((EPost.put (name, i, j) c.name).comp (epost_content c) (fun p v => Iff.rfl)).comp
      (epost_containers name i cs (j + 1)) (elCs_cons name i j min max c cs)
termination_by cs => (sizeOf cs, 0)
decreasing_by all_goals simp_wf; (try omega)

theorem epost_content : ∀ (c : Content), EPost (ElC c) (elementsContent c)
  | .external n g => by
    rw [show elementsContent (.external n g) = findElements g from by funext m; rw [elementsContent]]
    exact epost_grammar g
  | .token t => by
    rw [show elementsContent (.token t) = elementsToken t from by funext m; rw [elementsContent]]
    exact epost_token t
  | .everything n ex none => by
    rw [show elementsContent (.everything n ex none) = elementsToken ex from by
      funext m; rw [elementsContent, elementsOption]]
    exact (epost_token ex).congr (by intro p v; simp [ElC])
  | .everything n ex (some esc) => by
    rw [show elementsContent (.everything n ex (some esc)) = (fun m => elementsToken esc (elementsToken ex m))
      from by funext m; rw [elementsContent, elementsOption]]
    exact (epost_token ex).comp (epost_token esc) (by intro p v; simp [ElC])
  | .value n b => by
    rw [show elementsContent (.value n b) = (fun m => m) from by funext m; rw [elementsContent]]
    exact EPost.id (by simp [ElC])
  | .recursive n => by
    rw [show elementsContent (.recursive n) = (fun m => m) from by funext m; rw [elementsContent]]
    exact EPost.id (by simp [ElC])
termination_by c => (sizeOf c, 0)
decreasing_by all_goals simp_wf; (try omega)

theorem epost_grammar : ∀ (g : Grammar), EPost (ElementAt g) (findElements g)
  | .mk root chs => by
    rw [show findElements (.mk root chs) = (fun m => elementsChannels chs (elementsToken root m)) from by
      funext m; rw [findElements]]
    exact (epost_token root).comp (epost_channels chs) (elementAt_iff root chs)
termination_by g => (sizeOf g, 0)
decreasing_by all_goals simp_wf; (try omega)

theorem epost_channels : ∀ (cs : List Channel),
    EPost (fun p v => ∃ c ∈ cs, ElT c.token p v) (elementsChannels cs)
  | [] => by
    rw [show elementsChannels [] = (fun m => m) from by funext m; rw [elementsChannels]]
    exact EPost.id (by simp)
  | .mk t a b :: cs => by
    rw [show elementsChannels (.mk t a b :: cs) = (fun m => elementsChannels cs (elementsToken t m)) from by
      funext m; rw [elementsChannels]]
    exact (epost_token t).comp (epost_channels cs) (by intro p v; simp [Channel.token])
termination_by cs => (sizeOf cs, 0)
decreasing_by all_goals simp_wf; (try omega)
end

/-! ## The positions counted in trees -/

/-- Positions counted in the elements of a line, numbered from `off`. -/
def CountedEs (name : String) (i off : Nat) (es : List TElement) (p : Pos) : Prop :=
  ∃ j c xs, es[j]? = some (TElement.mk (some c) xs) ∧
    (p = (name, i, off + j) ∨ ∃ t, .tree t ∈ xs ∧ Counted c.name t p)

theorem counted_iff (name : String) (g : Token) (ls : List TLine) (i : Nat) (gl : GLine) (rev : Bool)
    (es : List TElement) (suf : List Tree) (rem : Bytes) (p : Pos) :
    Counted name (.mk g (.mk ls (some (.mk i gl rev es))) suf rem) p ↔ CountedEs name i 0 es p := by
  constructor
  · intro h
    cases h with
    | here _ _ l j c xs hm he =>
      cases hm
      exact ⟨j, c, xs, he, .inl (by simp [TLine.index])⟩
    | sub _ _ l c xs t' _ hm he ht hc =>
      cases hm
      obtain ⟨j, hj⟩ := List.getElem?_of_mem he
      exact ⟨j, c, xs, hj, .inr ⟨t', ht, hc⟩⟩
  · rintro ⟨j, c, xs, he, rfl | ⟨t, ht, hc⟩⟩
    · have := Counted.here name (.mk g (.mk ls (some (.mk i gl rev es))) suf rem) _ j c xs rfl he
      simpa [TLine.index] using this
    · exact .sub name _ _ c xs t p rfl (List.mem_of_getElem? he) ht hc

theorem countedEs_cons_none (name : String) (i off : Nat) (xs : List TContent) (es : List TElement) (p : Pos) :
    CountedEs name i off (.mk none xs :: es) p ↔ CountedEs name i (off + 1) es p := by
  constructor
  · rintro ⟨j, c, ys, he, h⟩
    cases j with
    | zero => simp at he
    | succ j => exact ⟨j, c, ys, by simpa using he, by simpa [Nat.add_assoc, Nat.add_comm 1 j] using h⟩
  · rintro ⟨j, c, ys, he, h⟩
    exact ⟨j + 1, c, ys, by simpa using he, by simpa [Nat.add_assoc, Nat.add_comm 1 j] using h⟩

theorem countedEs_cons_some (name : String) (i off : Nat) (c : Container) (xs : List TContent)
    (es : List TElement) (p : Pos) :
    CountedEs name i off (.mk (some c) xs :: es) p ↔
      ((p = (name, i, off) ∨ ∃ t, .tree t ∈ xs ∧ Counted c.name t p) ∨ CountedEs name i (off + 1) es p) := by
  constructor
  · rintro ⟨j, k, ys, he, h⟩
    cases j with
    | zero =>
      simp only [List.getElem?_cons_zero, Option.some.injEq, TElement.mk.injEq] at he
      obtain ⟨rfl, rfl⟩ := he
      exact .inl (by simpa using h)
    | succ j => exact .inr ⟨j, k, ys, by simpa using he, by simpa [Nat.add_assoc, Nat.add_comm 1 j] using h⟩
  · rintro (h | ⟨j, k, ys, he, h⟩)
    · exact ⟨0, c, xs, rfl, by simpa using h⟩
    · exact ⟨j + 1, k, ys, by simpa using he, by simpa [Nat.add_assoc, Nat.add_comm 1 j] using h⟩

/-- The keys of the result are those of `m` and the positions in `E`. -/
def CPost (E : Pos → Prop) (f : Positions → Out Positions) : Prop :=
  ∀ m m', f m = .ok m' → ∀ p, (m'.lookup p).isSome ↔ (m.lookup p).isSome ∨ E p

theorem CPost.nil {E : Pos → Prop} (h : ∀ p, ¬ E p) : CPost E (fun m => .ok m) := by
  intro m m' he p
  cases he
  simp [h]

theorem CPost.comp {E E' E'' : Pos → Prop} {f f' : Positions → Out Positions} (h : CPost E f)
    (h' : CPost E' f') (he : ∀ p, E'' p ↔ E p ∨ E' p) : CPost E'' (fun m => f m >>= fun m' => f' m') := by
  intro m m'' hx p
  simp only [out_bind, andThen_ok] at hx
  obtain ⟨m', h1, h2⟩ := hx
  rw [h' _ _ h2 p, h _ _ h1 p, he p]
  exact or_assoc

theorem CPost.congr {E E' : Pos → Prop} {f : Positions → Out Positions} (h : CPost E f)
    (he : ∀ p, E' p ↔ E p) : CPost E' f := by
  intro m m' hx p
  rw [h m m' hx p, he p]

mutual
theorem cpost_tree : ∀ (t : Tree) (name : String), CPost (Counted name t) (coveredTree name t)
  | .mk g (.mk ls none) suf rem, name => by
    rw [show coveredTree name (.mk g (.mk ls none) suf rem) = (fun m => .ok m) from by
      funext m; rw [coveredTree, coveredBlock]]
    refine CPost.nil ?_
    intro p h
    cases h with
    | here _ _ l j c xs hm he => simp [Tree.matched] at hm
    | sub _ _ l c xs t' _ hm he ht hc => simp [Tree.matched] at hm
  | .mk g (.mk ls (some (.mk i gl rev es))) suf rem, name => by
    have ih := cpost_elements name i es 0
    intro m m' h p
    rw [coveredTree, coveredBlock] at h
    split at h
    · cases h
    · rw [ih m m' h p, counted_iff]
termination_by t => (sizeOf t, 0)
decreasing_by all_goals simp_wf; (try omega)

theorem cpost_elements (name : String) (i : Nat) : ∀ (es : List TElement) (j : Nat),
    CPost (CountedEs name i j es) (coveredElements name i j es)
  | [], j => by
    rw [show coveredElements name i j [] = (fun m => .ok m) from by funext m; rw [coveredElements]]
    exact CPost.nil (by rintro p ⟨j, c, xs, he, _⟩; simp at he)
  | .mk none xs :: es, j => by
    rw [show coveredElements name i j (.mk none xs :: es) = coveredElements name i (j + 1) es from by
      funext m; rw [coveredElements]]
    exact (cpost_elements name i es (j + 1)).congr (countedEs_cons_none name i j xs es)
  | .mk (some c) xs :: es, j => by
    rw [show coveredElements name i j (.mk (some c) xs :: es) = (fun m =>
      coveredContents c.name xs (m.add (name, i, j) c.name) >>= fun m' =>
        coveredElements name i (j + 1) es m') from by funext m; rw [coveredElements]]
    refine CPost.comp (E := fun p => p = (name, i, j) ∨ ∃ t, .tree t ∈ xs ∧ Counted c.name t p) ?_
      (cpost_elements name i es (j + 1)) (countedEs_cons_some name i j c xs es)
    intro m m' h p
    rw [cpost_contents c.name xs _ _ h p, lookup_add]
    exact or_assoc
termination_by es => (sizeOf es, 0)
decreasing_by all_goals simp_wf; (try omega)

theorem cpost_contents (name : String) : ∀ (xs : List TContent),
    CPost (fun p => ∃ t, .tree t ∈ xs ∧ Counted name t p) (coveredContents name xs)
  | [] => by
    rw [show coveredContents name [] = (fun m => .ok m) from by funext m; rw [coveredContents]]
    exact CPost.nil (by simp)
  | .value a b :: xs => by
    rw [show coveredContents name (.value a b :: xs) = coveredContents name xs from by
      funext m; rw [coveredContents]]
    exact (cpost_contents name xs).congr (by simp)
  | .tree t :: xs => by
    rw [show coveredContents name (.tree t :: xs) = (fun m =>
      coveredTree name t m >>= fun m' => coveredContents name xs m') from by funext m; rw [coveredContents]]
    refine (cpost_tree t name).comp (cpost_contents name xs) ?_
    intro p
    simp only [List.mem_cons, TContent.tree.injEq]
    constructor
    · rintro ⟨t', rfl | h, hc⟩
      · exact .inl hc
      · exact .inr ⟨t', h, hc⟩
    · rintro (h | ⟨t', h, hc⟩)
      · exact ⟨t, .inl rfl, h⟩
      · exact ⟨t', .inr h, hc⟩
termination_by xs => (sizeOf xs, 0)
decreasing_by all_goals simp_wf; (try omega)
end

theorem cpost_executions (name : String) (es : List Execution) :
    CPost (fun p => ∃ e ∈ es, ∃ t, e.result = some t ∧ Counted name t p) (coveredExecutions name es) := by
  induction es with
  | nil =>
    rw [show coveredExecutions name [] = (fun m => .ok m) from by funext m; rw [coveredExecutions]]
    exact CPost.nil (by simp)
  | cons e es ih =>
    obtain ⟨s, r⟩ := e
    cases r with
    | none =>
      rw [show coveredExecutions name (⟨s, none⟩ :: es) = coveredExecutions name es from by
        funext m; rw [coveredExecutions]]
      exact ih.congr (by simp)
    | some t =>
      rw [show coveredExecutions name (⟨s, some t⟩ :: es) = (fun m =>
        coveredTree name t m >>= fun m' => coveredExecutions name es m') from by
          funext m; rw [coveredExecutions]]
      exact (cpost_tree t name).comp ih (by simp)

theorem cpost_list (cs : List Coverage) :
    CPost (fun p => ∃ name t, TestTree cs name t ∧ Counted name t p) (coveredList cs) := by
  induction cs with
  | nil =>
    rw [show coveredList [] = (fun m => .ok m) from by funext m; rw [coveredList]]
    exact CPost.nil (by simp [TestTree])
  | cons c cs ih =>
    rw [show coveredList (c :: cs) = (fun m =>
      coveredExecutions c.token.name c.executions m >>= fun m' => coveredList cs m') from by
        funext m; rw [coveredList]]
    refine (cpost_executions c.token.name c.executions).comp ih ?_
    intro p
    constructor
    · rintro ⟨name, t, ⟨k, hk, rfl, e, he, hr⟩, hc⟩
      simp only [List.mem_cons] at hk
      rcases hk with rfl | hk
      · exact .inl ⟨e, he, t, hr, hc⟩
      · exact .inr ⟨_, t, ⟨k, hk, rfl, e, he, hr⟩, hc⟩
    · rintro (⟨e, he, t, hr, hc⟩ | ⟨name, t, ⟨k, hk, rfl, e, he, hr⟩, hc⟩)
      · exact ⟨_, t, ⟨c, by simp, rfl, e, he, hr⟩, hc⟩
      · exact ⟨_, t, ⟨k, by simp [hk], rfl, e, he, hr⟩, hc⟩

/-- The keys of `Covered`. -/
theorem covered_keys {cs : List Coverage} {m : Positions} (h : covered cs = .ok m) (p : Pos) :
    (m.lookup p).isSome ↔ ∃ name t, TestTree cs name t ∧ Counted name t p := by
  unfold covered at h
  split at h
  · cases h
  · rw [cpost_list cs [] m h p]
    simp

/-! ## No panic -/

/-- Every matched line in the tree has elements. -/
def Full (t : Tree) : Prop := ∀ t', SubTree t t' → ∀ l, t'.matched = some l → l.elements ≠ []

theorem Full.sub {t t' : Tree} {l : TLine} {e : TElement} (h : Full t) (hm : t.matched = some l)
    (he : e ∈ l.elements) (ht : .tree t' ∈ e.contents) : Full t' :=
  fun t'' hs => h t'' (.step t t' t'' l e hm he ht hs)

mutual
theorem coveredTree_ok : ∀ (t : Tree) (name : String) (m : Positions), Full t →
    ∃ m', coveredTree name t m = .ok m'
  | .mk g (.mk ls none) suf rem, name, m, _ => ⟨m, by rw [coveredTree, coveredBlock]⟩
  | .mk g (.mk ls (some (.mk i gl rev es))) suf rem, name, m, h => by
    rw [coveredTree, coveredBlock]
    have hne : es ≠ [] := h _ (.refl _) _ rfl
    rw [if_neg (by simpa using hne)]
    exact coveredElements_ok name i es 0 m (fun e he x hx => h.sub (e := e) (l := .mk i gl rev es) rfl he hx)
termination_by t => (sizeOf t, 0)
decreasing_by all_goals simp_wf; (try omega)

theorem coveredElements_ok (name : String) (i : Nat) : ∀ (es : List TElement) (j : Nat) (m : Positions),
    (∀ e ∈ es, ∀ t, .tree t ∈ e.contents → Full t) → ∃ m', coveredElements name i j es m = .ok m'
  | [], j, m, _ => ⟨m, by rw [coveredElements]⟩
  | .mk none xs :: es, j, m, h => by
    rw [coveredElements]
    exact coveredElements_ok name i es (j + 1) m (fun e he => h e (by simp [he]))
  | .mk (some c) xs :: es, j, m, h => by
    rw [coveredElements]
    obtain ⟨m1, h1⟩ := coveredContents_ok c.name xs (m.add (name, i, j) c.name)
      (fun t ht => h (.mk (some c) xs) (by simp) t ht)
    obtain ⟨m2, h2⟩ := coveredElements_ok name i es (j + 1) m1 (fun e he => h e (by simp [he]))
    exact ⟨m2, by simp [out_bind, h1, Out.andThen, h2]⟩
termination_by es => (sizeOf es, 0)
decreasing_by all_goals simp_wf; (try omega)

theorem coveredContents_ok (name : String) : ∀ (xs : List TContent) (m : Positions),
    (∀ t, .tree t ∈ xs → Full t) → ∃ m', coveredContents name xs m = .ok m'
  | [], m, _ => ⟨m, by rw [coveredContents]⟩
  | .value a b :: xs, m, h => by
    rw [coveredContents]
    exact coveredContents_ok name xs m (fun t ht => h t (by simp [ht]))
  | .tree t :: xs, m, h => by
    rw [coveredContents]
    obtain ⟨m1, h1⟩ := coveredTree_ok t name m (h t (by simp))
    obtain ⟨m2, h2⟩ := coveredContents_ok name xs m1 (fun t ht => h t (by simp [ht]))
    exact ⟨m2, by simp [out_bind, h1, Out.andThen, h2]⟩
termination_by xs => (sizeOf xs, 0)
decreasing_by all_goals simp_wf; (try omega)
end

theorem coveredExecutions_ok (name : String) (es : List Execution) :
    ∀ (m : Positions), (∀ e ∈ es, ∀ t, e.result = some t → Full t) →
      ∃ m', coveredExecutions name es m = .ok m' := by
  induction es with
  | nil => intro m _; exact ⟨m, rfl⟩
  | cons e es ih =>
    intro m h
    obtain ⟨s, r⟩ := e
    have hs : ∀ e ∈ es, ∀ t, e.result = some t → Full t := fun e he => h e (by simp [he])
    cases r with
    | none => exact ih m hs
    | some t =>
      obtain ⟨m1, h1⟩ := coveredTree_ok t name m (h ⟨s, some t⟩ (by simp) t rfl)
      obtain ⟨m2, h2⟩ := ih m1 hs
      exact ⟨m2, by simp [coveredExecutions, out_bind, h1, Out.andThen, h2]⟩

theorem coveredList_ok (cs : List Coverage) : ∀ (m : Positions),
    (∀ name t, TestTree cs name t → Full t) → ∃ m', coveredList cs m = .ok m' := by
  induction cs with
  | nil => intro m _; exact ⟨m, rfl⟩
  | cons c cs ih =>
    intro m h
    obtain ⟨m1, h1⟩ := coveredExecutions_ok c.token.name c.executions m
      (fun e he t hr => h _ t ⟨c, by simp, rfl, e, he, hr⟩)
    obtain ⟨m2, h2⟩ := ih m1 (by
      rintro name t ⟨k, hk, hn, hr⟩
      exact h name t ⟨k, by simp [hk], hn, hr⟩)
    exact ⟨m2, by simp [coveredList, out_bind, h1, Out.andThen, h2]⟩

/-- The content of a tree has the matched line of a derivation. -/
theorem treeOK_full {path : List Token} {chs : List Channel} {rev : Bool} {tok : Token} {t : Tree}
    (h : TreeOK path chs rev tok t) : Full t := by
  intro t' hs
  have main : ∀ t0 t', SubTree t0 t' → (∃ path chs rev tok t2, TreeOK path chs rev tok t2 ∧
      t0.matched = t2.matched) → ∀ l, t'.matched = some l → l.elements ≠ [] := by
    intro t0 t' hs
    induction hs with
    | refl t0 =>
      rintro ⟨path, chs, rev, tok, t2, ht, he⟩ l hm
      rw [he] at hm
      cases ht with
      | forward _ _ _ ls i g es suf rem _ _ hne _ =>
        cases hm
        exact hne
      | reverse _ _ _ ls i g bs suf rem _ _ _ =>
        cases hm
        simp [TLine.elements]
    | step t0 t1 t'' l e hm he ht _ ih =>
      rintro ⟨path, chs, rev, tok, t2, hk, heq⟩ l' hm'
      refine ih ?_ l' hm'
      rw [heq] at hm
      cases hk with
      | reverse _ _ _ ls i g bs suf rem _ _ _ =>
        cases hm
        simp only [TLine.elements, List.mem_singleton] at he
        subst he
        simp [TElement.contents] at ht
      | forward _ _ _ ls i g es suf rem hl hes hne _ =>
        cases hm
        simp only [TLine.elements] at he
        have key : ∀ (cs : List Container) (es : List TElement), ElementsOK (tok :: path) chs cs es →
            e ∈ es → ∃ c, ContentOK (tok :: path) chs c (.tree t1) := by
          intro cs
          induction cs with
          | nil => intro es h he; cases h; simp at he
          | cons c cs ih =>
            intro es h he
            cases h with
            | absent _ _ max c cs es h => exact ih es h he
            | present _ _ min max c cs xs es h1 h2 h3 h4 h5 h6 =>
              simp only [List.mem_cons] at he
              rcases he with rfl | he
              · exact ⟨c, h5 _ ht⟩
              · exact ih es h6 he
        obtain ⟨c, hc⟩ := key _ _ hes he
        cases hc with
        | token _ _ tok t h => exact ⟨_, _, _, _, _, h, rfl⟩
        | everything _ _ n ex esc t h => exact ⟨_, _, _, _, _, h, rfl⟩
        | recursive _ _ tok t _ h => exact ⟨_, _, _, _, _, h, rfl⟩
        | external _ _ n root channels ls l suf rem h => exact ⟨_, _, _, _, _, h, rfl⟩
  exact main t t' hs ⟨path, chs, rev, tok, t, h, rfl⟩

theorem full_of_execute {n : Nat} {u : Token} {chs : List Channel} {input : Bytes}
    (hlen : input.length < 2 ^ 63) {t : Tree} (h : execute n (.mk u chs) input = .ok t) : Full t := by
  by_cases hs : t.isSuccessful = true
  · exact treeOK_full ((token_just n [] u ⟨none, chs, false⟩ [] input hlen [] (sp_nil [])).2 t h hs)
  · intro t' hsub l hm
    have hnone : t.matched = none := by
      obtain ⟨g, ⟨ls, s⟩, suf, rem⟩ := t
      simp only [Tree.isSuccessful, Tree.block, Block.successful, Option.isSome_iff_ne_none, ne_eq,
        Decidable.not_not] at hs
      exact hs
    cases hsub with
    | refl => rw [hnone] at hm; simp at hm
    | step _ t1 _ l' e hm' _ _ _ => rw [hnone] at hm'; simp at hm'

end Rodkina.Ast
