import Verif.ConcurrentLemmas
/-! Lemmas for C94 and C129: the database file while processes commit. -/

namespace Rodkina
namespace DB

open Ref

/-- After it has renamed, what is left of a commit leaves the database file as it is, and ends. -/
theorem under_rest {src dst bck : Name} (h2 : src ≠ bck) {α : Type} (pid : Nat) (q : Prog (Out α)) : ∀ (s : Shared) (D : Nat → Prop),
    q.Fine src dst bck (fun o _ b => NoHang o b) D true →
    (alone pid q s).1 ≠ .hang ∧ (alone pid q s).2.fs.file src = s.fs.file src := by
  induction q with
  | ret o => intro s D h; exact ⟨h rfl, rfl⟩
  | op o k ih =>
    intro s D h
    obtain ⟨hf, hk⟩ := h
    have hk' := hk (exec pid o s).1
    cases o with
    | lockOpen p => exact hf.elim
    | flock i => exact hf.elim
    | unlock i => exact hf.elim
    | create p => cases hf.2
    | write i off bs => cases hf.2
    | rename p q => cases hf.2.2
    | size i => exact ih _ _ _ hk'
    | read c l off => exact ih _ _ _ hk'
    | readRest i pos => exact ih _ _ _ hk'
    | openFile p => exact ih _ _ _ hk'
    | remove p =>
      obtain ⟨_, e⟩ | ⟨rfl, _⟩ := hf
      · cases e
      · obtain ⟨a, b⟩ := ih _ _ _ hk'
        refine ⟨a, b.trans ?_⟩
        simp only [exec]
        split
        · exact file_same (upd_ne _ _ h2) fun _ _ => rfl
        · rfl

/-- A commit leaves well formed files. -/
theorem under_alone {src dst bck : Name} (h1 : src ≠ dst) (h2 : src ≠ bck) (h3 : dst ≠ bck) {α : Type} {fs0 : FS} (pid : Nat)
    (q : Prog (Out α)) : ∀ (s : Shared) (D : Nat → Prop) (b : Bool), Under src dst bck fs0 s.fs q D b →
    FsGood (alone pid q s).2.fs := by
  induction q with
  | ret o => intro s D b h; exact h.good
  | op o k ih => intro s D b h; exact ih _ _ _ _ (under_step h1 h2 h3 pid o k s D b h).1

theorem under_body {cfg : Cfg} {n : Name} (h2 : cfg.path n ≠ cfg.bck n) {c : Ctx} (hn : c.name = n) (r : Reference) {fs : FS} (g : FsGood fs) :
    Under (cfg.path n) (cfg.dst n) (cfg.bck n) fs fs (bodyProg cfg c r) (fun _ => False) false := by
  subst hn
  exact ⟨bodyProg_fine cfg c r _, g, fun _ _ h => h.elim, fun _ => .inr rfl, fun e => (by cases e),
    bodyProg_swaps cfg c r (Ne.symm h2), fun x _ e => by rw [e] at x; cases x⟩

/-- The whole commit is its body, when the database file exists. -/
theorem update_alone {cfg : Cfg} {n : Name} {c : Ctx} (hn : c.name = n) (r : Reference) {fs : FS}
    (hsrc : (fs.dir (cfg.path n)).isSome) (pid : Nat) (L : Nat → Option Nat) :
    (alone pid (bodyProg cfg c r) ⟨fs, L⟩).1 = ((updateDatabaseOnFile cfg calm c r).run ⟨fs, c.conn⟩).1 ∧
    (alone pid (bodyProg cfg c r) ⟨fs, L⟩).2.fs = ((updateDatabaseOnFile cfg calm c r).run ⟨fs, c.conn⟩).2.fs := by
  subst hn
  have h := sim_body pid cfg c r fs L
  rw [← update_body cfg c r fs hsrc] at h
  exact ⟨congrArg Prod.fst h, congrArg (fun y => y.2.fs) h⟩

/-- Commits one after the other keep the files well formed and the database file existing. -/
theorem atomic_good {cfg : Cfg} {n : Name} (h1 : cfg.path n ≠ cfg.dst n) (h2 : cfg.path n ≠ cfg.bck n) (h3 : cfg.dst n ≠ cfg.bck n)
    {a b : FS × (Nat → Client)} (h : AtomicSteps cfg a b) (hsrc : (a.1.dir (cfg.path n)).isSome) (hon : ∀ p, (a.2 p).On n)
    (g : FsGood a.1) : FsGood b.1 ∧ (b.1.dir (cfg.path n)).isSome ∧ ∀ p, (b.2 p).On n := by
  induction h with
  | refl => exact ⟨g, hsrc, hon⟩
  | tail b c _ hs ih =>
    obtain ⟨g', s', o'⟩ := ih
    cases hs with
    | commit fs cl p c r k o w hc hrun ho =>
      have hn := on_name o' hc
      have e := (update_alone hn r s' p (fun _ => none)).2
      rw [hrun] at e
      refine ⟨?_, ?_, on_k o' hc o⟩
      · rw [← e]
        exact under_alone h1 h2 h3 p _ _ _ _ (under_body h2 hn r g')
      · rw [← e]
        have := body_src p cfg c r ⟨fs, fun _ => none⟩ (by rw [hn]; exact h1) (by rw [hn]; exact h2) (by rw [hn]; exact s')
        rw [hn] at this
        exact this
    | refused fs cl p c r k hc => exact ⟨g', s', on_k o' hc _⟩

/-- Whatever is done next, the files stay well formed, and every file other than the temporary ones keeps its bytes. -/
theorem explained_settled {cfg : Cfg} {n : Name} (h1 : cfg.path n ≠ cfg.dst n) (h2 : cfg.path n ≠ cfg.bck n)
    (h3 : cfg.dst n ≠ cfg.bck n) {start : FS × (Nat → Client)} {s : System} {fs : FS} {cl : Nat → Client}
    (h : Explained cfg n start s fs cl) (g : FsGood fs) (p i : Nat) (hi : Settled (cfg.dst n) (cfg.bck n) s.shared.fs i) :
    Settled (cfg.dst n) (cfg.bck n) (s.step p).shared.fs i ∧ (s.step p).shared.fs.ino i = s.shared.fs.ino i := by
  have fresh : NotStarted cfg (cl p) (s.threads p) →
      Settled (cfg.dst n) (cfg.bck n) (s.step p).shared.fs i ∧ (s.step p).shared.fs.ino i = s.shared.fs.ino i := by
    intro hn
    rcases notStarted_cases _ _ _ hn with ⟨_, ht⟩ | ⟨c, r, k, hc, ht⟩ | ⟨c, r, k, j, hc, ht⟩
    · rw [System.step, ht]
      exact ⟨hi, rfl⟩
    · rw [hc, prog_commit, on_name h.on hc] at ht
      rw [System.step, ht]
      simp only [exec]
      unfold FS.touch
      cases e : s.shared.fs.dir (cfg.path n) with
      | some j => exact ⟨hi, rfl⟩
      | none =>
        refine ⟨⟨Nat.lt_of_lt_of_le hi.1 (create_next _ _), ?_, ?_⟩, create_ino_other hi.1 (by rw [e]; simp)⟩
        · rw [create_dir_ne _ (Ne.symm h1)]; exact hi.2.1
        · rw [create_dir_ne _ (Ne.symm h2)]; exact hi.2.2
    · rw [System.step, ht]
      simp only [exec]
      split <;> exact ⟨hi, rfl⟩
  rcases h.now with hd | ⟨p0, i0, c, r, k, q, hb⟩
  · exact fresh (hd.threads p)
  · by_cases hp : p = p0
    · subst hp
      obtain ⟨D, b, hu⟩ := hb.under g h3
      cases q with
      | ret o =>
        rw [System.step, hb.thread]
        cases o <;> exact ⟨hi, rfl⟩
      | op o kq =>
        rw [System.step, hb.thread]
        exact (under_step h1 h2 h3 p o kq s.shared D b hu).2 i hi
    · exact fresh (hb.others p hp)

theorem explained_good {cfg : Cfg} {n : Name} (h3 : cfg.dst n ≠ cfg.bck n) {start : FS × (Nat → Client)} {s : System} {fs : FS}
    {cl : Nat → Client} (h : Explained cfg n start s fs cl) (g : FsGood fs) : FsGood s.shared.fs := by
  rcases h.now with hd | ⟨p0, i0, c, r, k, q, hb⟩
  · rw [hd.fs]; exact g
  · obtain ⟨D, b, hu⟩ := hb.under g h3
    exact hu.good

/-- Over a whole schedule. -/
theorem settled_run {cfg : Cfg} {n : Name} (h1 : cfg.path n ≠ cfg.dst n) (h2 : cfg.path n ≠ cfg.bck n)
    (h3 : cfg.dst n ≠ cfg.bck n) {start : FS × (Nat → Client)} (hsrc : (start.1.dir (cfg.path n)).isSome)
    (hon : ∀ p, (start.2 p).On n) (g : FsGood start.1) (schedule : List Nat) : ∀ {s : System} {fs : FS} {cl : Nat → Client},
    Explained cfg n start s fs cl → Undisturbed (cfg.path n) s schedule →
    ∀ i, Settled (cfg.dst n) (cfg.bck n) s.shared.fs i → (s.run schedule).shared.fs.ino i = s.shared.fs.ino i := by
  induction schedule with
  | nil => intro s fs cl _ _ i _; rfl
  | cons p ps ih =>
    intro s fs cl h hu i hi
    obtain ⟨hi', e⟩ := explained_settled h1 h2 h3 h (atomic_good h1 h2 h3 h.steps hsrc hon g).1 p i hi
    obtain ⟨fs', cl', h'⟩ := explained_step h1 h2 h p hu.1
    exact (ih h' hu.2 i hi').trans e

/-- The database file at any moment is the one after a whole number of commits. -/
theorem explained_file {cfg : Cfg} {n : Name} (h1 : cfg.path n ≠ cfg.dst n) (h2 : cfg.path n ≠ cfg.bck n)
    (h3 : cfg.dst n ≠ cfg.bck n) {start : FS × (Nat → Client)} {s : System} {fs : FS} {cl : Nat → Client}
    (h : Explained cfg n start s fs cl) (g : FsGood fs) (hs : (s.shared.fs.dir (cfg.path n)).isSome) :
    ∃ fs' cl', AtomicSteps cfg start (fs', cl') ∧ fs'.file (cfg.path n) = s.shared.fs.file (cfg.path n) ∧
      ∀ p, (∀ i, s.shared.locks i ≠ some p) → NotStarted cfg (cl' p) (s.threads p) := by
  rcases h.now with hd | ⟨p0, i0, c, r, k, q, hb⟩
  · exact ⟨fs, cl, h.steps, by rw [hd.fs], fun p _ => hd.threads p⟩
  · obtain ⟨D, b, hu⟩ := hb.under g h3
    have other : ∀ p, (∀ i, s.shared.locks i ≠ some p) → p ≠ p0 := by
      rintro p hl rfl
      exact hl i0 ((hb.locks i0 p).2 ⟨rfl, rfl⟩)
    cases b with
    | false =>
      refine ⟨fs, cl, h.steps, ?_, fun p hl => hb.others p (other p hl)⟩
      rcases hu.before rfl with e | e
      · rw [e] at hs
        cases hs
      · exact e.symm
    | true =>
      obtain ⟨ho, hfile⟩ := under_rest h2 p0 q s.shared D hu.fine
      have hn := on_name h.on hb.client
      obtain ⟨e1, e2⟩ := update_alone hn r h.src p0 s.shared.locks
      rw [← hb.rest] at e1 e2
      obtain ⟨⟨o, w⟩, hx⟩ : ∃ y, (updateDatabaseOnFile cfg calm c r).run ⟨fs, c.conn⟩ = y := ⟨_, rfl⟩
      rw [hx] at e1 e2
      refine ⟨w.fs, upd cl p0 (k o), .tail _ _ _ h.steps (.commit fs cl p0 c r k o w hb.client hx (by
        rw [show o = _ from e1.symm]; exact ho)), ?_, ?_⟩
      · rw [show w.fs = _ from e2.symm]
        exact hfile
      · intro p hl
        rw [upd_ne _ _ (other p hl)]
        exact hb.others p (other p hl)

end DB
end Rodkina
