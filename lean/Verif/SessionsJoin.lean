import Verif.SessionsTwin
/-!
# A process among others and the same process alone
-/

namespace Rodkina
namespace DB

open Ref

set_option linter.unusedVariables false

/-- Both absent or both present and related. -/
inductive OptRel (F : Ren) : Option Nat → Option Nat → Prop where
  | none : OptRel F none none
  | some {i j} (h : F i j) : OptRel F (some i) (some j)

theorem OptRel.mono {F F' : Ren} (hF : ∀ i j, F i j → F' i j) {a b : Option Nat} (h : OptRel F a b) : OptRel F' a b := by
  cases h with
  | none => exact .none
  | some h => exact .some (hF _ _ h)

theorem OptRel.isSome {F : Ren} {a b : Option Nat} (h : OptRel F a b) : a.isSome = b.isSome := by
  cases h <;> rfl

/-- The files at the paths in `P`, and the files that were, are the same in both states. -/
structure Joined (P : Name → Prop) (F : Ren) (s t : Shared) : Prop where
  right : ∀ {i j j'}, F i j → F i j' → j = j'
  left : ∀ {i i' j}, F i j → F i' j → i = i'
  dir : ∀ p, P p → OptRel F (s.fs.dir p) (t.fs.dir p)
  ino : ∀ {i j}, F i j → s.fs.ino i = t.fs.ino j
  lt : ∀ {i j}, F i j → i < s.fs.next ∧ j < t.fs.next
  locks : ∀ {i j}, F i j → s.locks i = t.locks j
  freeS : ∀ i, s.fs.next ≤ i → s.locks i = none
  freeT : ∀ i, t.fs.next ≤ i → t.locks i = none

/-- What a process with paths `P` and inodes `F` does to the shared state. -/
structure Frame (P : Name → Prop) (F : Ren) (t : Shared) (F' : Ren) (t' : Shared) : Prop where
  dir : ∀ p, ¬ P p → t'.fs.dir p = t.fs.dir p
  ino : ∀ j, j < t.fs.next → (∀ i, ¬ F i j) → t'.fs.ino j = t.fs.ino j ∧ t'.locks j = t.locks j
  next : t.fs.next ≤ t'.fs.next
  fresh : ∀ {i j}, F' i j → F i j ∨ t.fs.next ≤ j
  free : ∀ i, t'.fs.next ≤ i → t'.locks i = none

/-- A process with other paths and inodes notices nothing. -/
theorem Joined.frame {P Q : Name → Prop} {F F' G : Ren} {s t t' : Shared} (h : Joined Q G s t) (hf : Frame P F t F' t')
    (hPQ : ∀ p, Q p → ¬ P p) (hFG : ∀ i i' j, F i j → G i' j → False) : Joined Q G s t' where
  right := h.right
  left := h.left
  dir p hp := by rw [hf.dir p (hPQ p hp)]; exact h.dir p hp
  ino {i j} hij := by
    rw [(hf.ino j (h.lt hij).2 (fun i' h' => hFG _ _ _ h' hij)).1]; exact h.ino hij
  lt {i j} hij := ⟨(h.lt hij).1, Nat.lt_of_lt_of_le (h.lt hij).2 hf.next⟩
  locks {i j} hij := by
    rw [(hf.ino j (h.lt hij).2 (fun i' h' => hFG _ _ _ h' hij)).2]; exact h.locks hij
  freeS := h.freeS
  freeT := hf.free

/-- Nothing happens to the shared state. -/
theorem Frame.refl {P : Name → Prop} {F : Ren} {s t : Shared} (h : Joined P F s t) : Frame P F t F t where
  dir _ _ := rfl
  ino _ _ _ := ⟨rfl, rfl⟩
  next := Nat.le_refl _
  fresh h := .inl h
  free := h.freeT

/-- Changing the content of an inode on both sides. -/
theorem Joined.content {P : Name → Prop} {F : Ren} {s t : Shared} (h : Joined P F s t) {i j : Nat} (hij : F i j)
    (f : Bytes → Bytes) :
    Joined P F { s with fs := { s.fs with ino := upd s.fs.ino i (f (s.fs.ino i)) } }
      { t with fs := { t.fs with ino := upd t.fs.ino j (f (t.fs.ino j)) } } ∧
    Frame P F t F { t with fs := { t.fs with ino := upd t.fs.ino j (f (t.fs.ino j)) } } := by
  constructor
  · refine { right := h.right, left := h.left, dir := h.dir, ino := ?_, lt := h.lt, locks := h.locks, freeS := h.freeS,
             freeT := h.freeT }
    intro a b hab
    by_cases e : a = i
    · subst e
      rw [h.right hab hij]
      simp only [upd_self, h.ino hij]
    · have e' : b ≠ j := fun e' => e (h.left hab (e' ▸ hij))
      simp only [upd_ne _ _ e, upd_ne _ _ e']
      exact h.ino hab
  · refine { dir := fun _ _ => rfl, ino := fun b _ hb => ⟨?_, rfl⟩, next := Nat.le_refl _, fresh := fun h => .inl h, free := h.freeT }
    exact upd_ne _ _ fun e => hb i (e ▸ hij)

/-- Changing a lock on both sides. -/
theorem Joined.lock {P : Name → Prop} {F : Ren} {s t : Shared} (h : Joined P F s t) {i j : Nat} (hij : F i j)
    (o : Option Nat) :
    Joined P F { s with locks := upd s.locks i o } { t with locks := upd t.locks j o } ∧
    Frame P F t F { t with locks := upd t.locks j o } := by
  have free : ∀ x, t.fs.next ≤ x → upd t.locks j o x = none := fun x hx => by
    rw [upd_ne _ _ (fun e => absurd (h.lt hij).2 (by omega))]; exact h.freeT x hx
  constructor
  · refine { right := h.right, left := h.left, dir := h.dir, ino := h.ino, lt := h.lt, locks := ?_, freeS := ?_, freeT := free }
    · intro a b hab
      by_cases e : a = i
      · subst e
        rw [h.right hab hij]
        simp only [upd_self]
      · have e' : b ≠ j := fun e' => e (h.left hab (e' ▸ hij))
        simp only [upd_ne _ _ e, upd_ne _ _ e']
        exact h.locks hab
    · intro x hx
      simp only at hx ⊢
      rw [upd_ne _ _ (fun e => absurd (h.lt hij).1 (by omega))]; exact h.freeS x hx
  · refine { dir := fun _ _ => rfl, ino := fun b _ hb => ⟨rfl, ?_⟩, next := Nat.le_refl _, fresh := fun h => .inl h, free := free }
    exact upd_ne _ _ fun e => hb i (e ▸ hij)

/-- Changing the directory on both sides. -/
theorem Joined.entry {P : Name → Prop} {F : Ren} {s t : Shared} (h : Joined P F s t) {q : Name} (hq : P q) {a b : Option Nat}
    (hab : OptRel F a b) :
    Joined P F { s with fs := { s.fs with dir := upd s.fs.dir q a } } { t with fs := { t.fs with dir := upd t.fs.dir q b } } ∧
    Frame P F t F { t with fs := { t.fs with dir := upd t.fs.dir q b } } := by
  constructor
  · refine { right := h.right, left := h.left, dir := ?_, ino := h.ino, lt := h.lt, locks := h.locks, freeS := h.freeS,
             freeT := h.freeT }
    intro p hp
    by_cases e : p = q
    · subst e; simp only [upd_self]; exact hab
    · simp only [upd_ne _ _ e]; exact h.dir p hp
  · refine { dir := fun p hp => ?_, ino := fun b _ hb => ⟨rfl, rfl⟩, next := Nat.le_refl _, fresh := fun h => .inl h, free := h.freeT }
    exact upd_ne _ _ fun e => hp (e ▸ hq)

theorem Frame.trans {P : Name → Prop} {F F' : Ren} {t t' t'' : Shared} (h : Frame P F t F t') (h' : Frame P F t' F' t'')
    (hn : t'.fs.next = t.fs.next) : Frame P F t F' t'' where
  dir p hp := (h'.dir p hp).trans (h.dir p hp)
  ino j hj hF := ⟨(h'.ino j (hn ▸ hj) hF).1.trans (h.ino j hj hF).1, (h'.ino j (hn ▸ hj) hF).2.trans (h.ino j hj hF).2⟩
  next := hn ▸ h'.next
  fresh h := hn ▸ h'.fresh h
  free := h'.free

/-- Making a new empty file on both sides. -/
theorem Joined.fresh {P : Name → Prop} {F : Ren} {s t : Shared} (h : Joined P F s t) {q : Name} (hq : P q) :
    ∃ F' : Ren, (∀ i j, F i j → F' i j) ∧ F' s.fs.next t.fs.next ∧
    Joined P F' { s with fs := ⟨upd s.fs.dir q (some s.fs.next), upd s.fs.ino s.fs.next [], s.fs.next + 1⟩ }
      { t with fs := ⟨upd t.fs.dir q (some t.fs.next), upd t.fs.ino t.fs.next [], t.fs.next + 1⟩ } ∧
    Frame P F t F' { t with fs := ⟨upd t.fs.dir q (some t.fs.next), upd t.fs.ino t.fs.next [], t.fs.next + 1⟩ } := by
  refine ⟨fun i j => F i j ∨ (i = s.fs.next ∧ j = t.fs.next), fun i j h => .inl h, .inr ⟨rfl, rfl⟩, ?_, ?_⟩
  · constructor
    · rintro i j j' (h1 | ⟨h1, h2⟩) (h3 | ⟨h3, h4⟩)
      · exact h.right h1 h3
      · have := (h.lt h1).1; omega
      · have := (h.lt h3).1; omega
      · omega
    · rintro i i' j (h1 | ⟨h1, h2⟩) (h3 | ⟨h3, h4⟩)
      · exact h.left h1 h3
      · have := (h.lt h1).2; omega
      · have := (h.lt h3).2; omega
      · omega
    · intro p hp
      by_cases e : p = q
      · subst e; simp only [upd_self]; exact .some (.inr ⟨rfl, rfl⟩)
      · simp only [upd_ne _ _ e]; exact (h.dir p hp).mono fun _ _ h => .inl h
    · rintro i j (h1 | ⟨h1, h2⟩)
      · have := h.lt h1
        simp only
        rw [upd_ne _ _ (by omega), upd_ne _ _ (by omega)]
        exact h.ino h1
      · subst h1 h2; simp only [upd_self]
    · rintro i j (h1 | ⟨h1, h2⟩)
      · have := h.lt h1
        simp only; omega
      · simp only; omega
    · rintro i j (h1 | ⟨h1, h2⟩)
      · exact h.locks h1
      · simp only [h1, h2]
        rw [h.freeS _ (Nat.le_refl _), h.freeT _ (Nat.le_refl _)]
    · intro i hi; simp only at hi; exact h.freeS i (by omega)
    · intro i hi; simp only at hi; exact h.freeT i (by omega)
  · refine { dir := fun p hp => ?_, ino := fun b hb _ => ⟨?_, rfl⟩, next := ?_, fresh := ?_, free := ?_ }
    · exact upd_ne _ _ fun e => hp (e ▸ hq)
    · exact upd_ne _ _ (by omega)
    · simp only; omega
    · rintro i j (h1 | ⟨h1, h2⟩)
      · exact .inl h1
      · right; omega
    · intro i hi; simp only at hi; exact h.freeT i (by omega)

/-- The next operation of a program. -/
def Prog.step {α : Type} (pid : Nat) : Prog α → Shared → Prog α × Shared
  | .ret a, s => (.ret a, s)
  | .op o k, s => (k (exec pid o s).1, (exec pid o s).2)

/-- One operation in both runs. -/
theorem twin_step {α β : Type} {P : Name → Prop} {R : Ren → α → β → Prop} {F : Ren} {x : Prog α} {y : Prog β} {s t : Shared}
    (pid : Nat) (hx : Twin P R F x y) (hj : Joined P F s t) :
    ∃ F', Twin P R F' (x.step pid s).1 (y.step pid t).1 ∧ Joined P F' (x.step pid s).2 (y.step pid t).2 ∧
      Frame P F t F' (y.step pid t).2 := by
  cases hx with
  | ret h => exact ⟨F, .ret h, hj, .refl hj⟩
  | lockOpen hp h =>
    rename_i p k k'
    simp only [Prog.step, exec, FS.touch, FS.create]
    have hd := hj.dir p hp
    cases ha : s.fs.dir p with
    | none =>
      cases hb : t.fs.dir p with
      | some j => rw [ha, hb] at hd; cases hd
      | none =>
        obtain ⟨F', h1, h2, h3, h4⟩ := hj.fresh hp
        simp only [upd_self, Option.getD_some]
        exact ⟨F', h F' h1 _ _ h2, h3, h4⟩
    | some i =>
      cases hb : t.fs.dir p with
      | none => rw [ha, hb] at hd; cases hd
      | some j =>
        rw [ha, hb] at hd
        cases hd with
        | some hij =>
          simp only [ha, hb, Option.getD_some]
          exact ⟨F, h F (fun _ _ h => h) _ _ hij, hj, .refl hj⟩
  | flock hi h =>
    rename_i i j k k'
    simp only [Prog.step, exec]
    rw [hj.locks hi]
    cases t.locks j with
    | none =>
      obtain ⟨h1, h2⟩ := hj.lock hi (some pid)
      exact ⟨F, h _, h1, h2⟩
    | some q => exact ⟨F, h _, hj, .refl hj⟩
  | unlock hi h =>
    obtain ⟨h1, h2⟩ := hj.lock hi none
    exact ⟨F, h, h1, h2⟩
  | create hp h =>
    rename_i p k k'
    simp only [Prog.step, exec, FS.create, FS.createIno]
    have hd := hj.dir p hp
    cases ha : s.fs.dir p with
    | none =>
      cases hb : t.fs.dir p with
      | some j => rw [ha, hb] at hd; cases hd
      | none =>
        obtain ⟨F', h1, h2, h3, h4⟩ := hj.fresh hp
        exact ⟨F', h F' h1 _ _ h2, h3, h4⟩
    | some i =>
      cases hb : t.fs.dir p with
      | none => rw [ha, hb] at hd; cases hd
      | some j =>
        rw [ha, hb] at hd
        cases hd with
        | some hij =>
          obtain ⟨h1, h2⟩ := hj.content hij (fun _ => [])
          exact ⟨F, h F (fun _ _ h => h) _ _ hij, h1, h2⟩
  | write hi h =>
    rename_i i j off bs k k'
    obtain ⟨h1, h2⟩ := hj.content hi (fun c => writeBytes c off bs)
    exact ⟨F, h, h1, h2⟩
  | size hi h =>
    simp only [Prog.step, exec]
    rw [hj.ino hi]
    exact ⟨F, h _, hj, .refl hj⟩
  | read hi h =>
    simp only [Prog.step, exec, connRead]
    rw [hj.ino hi]
    exact ⟨F, h _, hj, .refl hj⟩
  | readRest hi h =>
    simp only [Prog.step, exec]
    rw [hj.ino hi]
    exact ⟨F, h _, hj, .refl hj⟩
  | remove hp h =>
    rename_i p k k'
    simp only [Prog.step, exec, FS.remove]
    rw [(hj.dir p hp).isSome]
    cases (t.fs.dir p).isSome
    · exact ⟨F, h _, hj, .refl hj⟩
    · obtain ⟨h1, h2⟩ := hj.entry hp .none
      exact ⟨F, h _, h1, h2⟩
  | rename hp hq h =>
    rename_i p q k k'
    simp only [Prog.step, exec, FS.rename]
    rw [(hj.dir p hp).isSome]
    cases (t.fs.dir p).isSome
    · exact ⟨F, h _, hj, .refl hj⟩
    · obtain ⟨h1, h2⟩ := hj.entry hq (hj.dir p hp)
      obtain ⟨h3, h4⟩ := h1.entry hp .none
      exact ⟨F, h _, h3, h2.trans h4 rfl⟩
  | openNone hp h h' =>
    rename_i p k k'
    simp only [Prog.step, exec]
    have hd := hj.dir p hp
    cases ha : s.fs.dir p with
    | none =>
      cases hb : t.fs.dir p with
      | some j => rw [ha, hb] at hd; cases hd
      | none => exact ⟨F, h, hj, .refl hj⟩
    | some i =>
      cases hb : t.fs.dir p with
      | none => rw [ha, hb] at hd; cases hd
      | some j =>
        rw [ha, hb] at hd
        cases hd with
        | some hij => exact ⟨F, h' _ _ hij, hj, .refl hj⟩

/-! ## All processes -/

theorem Procs.step_eq {α : Type} (t : Procs α) (p : Nat) :
    t.step p = ⟨((t.threads p).step p t.shared).2, upd t.threads p ((t.threads p).step p t.shared).1⟩ := by
  unfold Procs.step
  cases h : t.threads p with
  | ret a =>
    have e : upd t.threads p (Prog.ret a) = t.threads := by
      funext x
      by_cases e : x = p
      · subst e; rw [upd_self, h]
      · rw [upd_ne _ _ e]
    simp only [Prog.step, e]
  | op o k => rfl

/-- Each process is where it would be alone after its own steps. -/
def Parallel {α : Type} (P : Nat → Name → Prop) (t : Procs α) (s : Nat → Procs α) : Prop :=
  ∃ F : Nat → Ren, (∀ p q i i' j, F p i j → F q i' j → p = q) ∧
    ∀ p, Twin (P p) Same (F p) ((s p).threads p) (t.threads p) ∧ Joined (P p) (F p) (s p).shared t.shared

theorem parallel_step {α : Type} {P : Nat → Name → Prop} (hP : ∀ p q x, P p x → P q x → p = q) {t : Procs α}
    {s : Nat → Procs α} (h : Parallel P t s) (p : Nat) : Parallel P (t.step p) (upd s p ((s p).step p)) := by
  obtain ⟨F, h1, h2⟩ := h
  obtain ⟨G, g1, g2, g3⟩ := twin_step p (h2 p).1 (h2 p).2
  refine ⟨upd F p G, ?_, ?_⟩
  · intro a b i i' j ha hb
    by_cases ea : a = p <;> by_cases eb : b = p
    · omega
    · rw [ea, upd_self] at ha
      rw [upd_ne _ _ eb] at hb
      rcases g3.fresh ha with ha | ha
      · exact ea ▸ h1 _ _ _ _ _ ha hb
      · have := ((h2 b).2.lt hb).2; omega
    · rw [eb, upd_self] at hb
      rw [upd_ne _ _ ea] at ha
      rcases g3.fresh hb with hb | hb
      · exact eb ▸ h1 _ _ _ _ _ ha hb
      · have := ((h2 a).2.lt ha).2; omega
    · rw [upd_ne _ _ ea] at ha
      rw [upd_ne _ _ eb] at hb
      exact h1 _ _ _ _ _ ha hb
  · intro q
    rw [Procs.step_eq t p]
    by_cases e : q = p
    · subst e
      simp only [upd_self, Procs.step_eq]
      exact ⟨g1, g2⟩
    · simp only [upd_ne _ _ e]
      refine ⟨(h2 q).1, (h2 q).2.frame g3 (fun x hq hp => e (hP _ _ _ hq hp)) fun i i' j ha hb => e (h1 _ _ _ _ _ hb ha)⟩

theorem parallel_run {α : Type} {P : Nat → Name → Prop} (hP : ∀ p q x, P p x → P q x → p = q) (L : List Nat) :
    ∀ {t : Procs α} {s : Nat → Procs α}, Parallel P t s →
    Parallel P (t.run L) (fun p => (s p).run (L.filter (· == p))) := by
  induction L with
  | nil => intro t s h; exact h
  | cons q L ih =>
    intro t s h
    have h' := ih (parallel_step hP h q)
    have e : (fun p => (s p).run ((q :: L).filter (· == p))) = fun p => (upd s q ((s q).step q) p).run (L.filter (· == p)) := by
      funext p
      by_cases e : q = p
      · subst e; simp [upd_self, Procs.run]
      · rw [upd_ne _ _ (fun h => e h.symm)]
        simp [e]
    rw [e]
    exact h'

theorem parallel_start {α : Type} (cfg : Nat → Cfg) (N : Nat → Name → Prop) (fs : FS) (hg : FsGood fs)
    (ss : Nat → Session α) (hu : ∀ p, (ss p).Uses (N p)) (hP : ∀ p q x, (cfg p).Owns (N p) x → (cfg q).Owns (N q) x → p = q) :
    Parallel (fun p => (cfg p).Owns (N p)) (Procs.start cfg fs ss) (fun _ => Procs.start cfg fs ss) := by
  refine ⟨fun p i j => i = j ∧ ∃ x, (cfg p).Owns (N p) x ∧ fs.dir x = some i, ?_, fun p => ⟨?_, ?_⟩⟩
  · rintro p q i i' j ⟨e1, x, hx, hx'⟩ ⟨e2, y, hy, hy'⟩
    have e : x = y := hg.2 _ _ _ hx' (by rw [e1, ← e2]; exact hy')
    exact hP _ _ x hx (e ▸ hy)
  · exact twin_session (cfg p) (ss p) (hu p) .nil
  · refine { right := ?_, left := ?_, dir := ?_, ino := ?_, lt := ?_, locks := fun _ => rfl, freeS := fun _ _ => rfl, freeT := fun _ _ => rfl }
    · rintro i j j' ⟨rfl, _⟩ ⟨rfl, _⟩; rfl
    · rintro i i' j ⟨rfl, _⟩ ⟨rfl, _⟩; rfl
    · intro x hx
      simp only [Procs.start]
      cases h : fs.dir x with
      | none => exact .none
      | some i => exact .some ⟨rfl, x, hx, h⟩
    · rintro i j ⟨rfl, _⟩; rfl
    · rintro i j ⟨rfl, x, _, hx⟩
      exact ⟨hg.1 _ _ hx, hg.1 _ _ hx⟩

end DB
end Rodkina
