import Verif.Dirs
/-! Property theorems C145 and C146: databases in a tree of files and directories. -/

namespace Rodkina
namespace Props

open DB Dirs

/-! ### C145 -/

/-- C145, exactly, for names of one part: New succeeds if and only if nothing is there and no file is in the way of the directory. Then an
empty file is there, and the directories that lead to it, and everything else is as before; if it fails, everything is. Missing from
the full claim: other names, and applications without a directory. -/
theorem C145_new_exactly_partial (cwd : List Name) (dirPath : Name) (hd : dirPath ≠ []) (t : Tree) (h : t.WF) (n : Name)
    (hn : PlainName n) :
    ((Dirs.new cwd dirPath t n).1 = true ↔
      t (resolve cwd dirPath ++ [n]) = none ∧ ∀ q b, q <+: resolve cwd dirPath → t q ≠ some (.file b)) ∧
    ((Dirs.new cwd dirPath t n).1 = true → ∀ q, (Dirs.new cwd dirPath t n).2 q =
      if q = resolve cwd dirPath ++ [n] then some (.file []) else if q <+: resolve cwd dirPath then some .dir else t q) ∧
    ((Dirs.new cwd dirPath t n).1 = false → (Dirs.new cwd dirPath t n).2 = t) := by
  have hj := joinPath_ne dirPath n hd
  obtain ⟨t1, e1, h1⟩ := newDir_is cwd dirPath t h hd
  have hres := resolve_plain cwd dirPath hd hn
  unfold Dirs.new
  rw [e1]
  simp only [stat, if_neg hj, create, hres, List.dropLast_concat]
  generalize resolve cwd dirPath = D at *
  have hnp : ¬ D ++ [n] <+: D := by
    rintro ⟨r, hr⟩
    have := congrArg List.length hr
    simp at this
  rcases h1 with ⟨hb, rfl⟩ | ⟨hb, h1⟩
  · -- a file is in the way
    have hbb := hb
    rw [blocked_iff] at hb
    obtain ⟨q, b, hq, e⟩ := hb
    have hnone : t1 (D ++ [n]) = none := by
      by_contra hne
      obtain ⟨r, rfl⟩ := hq
      rw [List.append_assoc] at hne
      have := wf_prefix h q (r ++ [n]) (by simp) hne
      rw [this] at e; cases e
    have hD : t1 D ≠ some .dir := fun hD => by rw [not_blocked_present h hD] at hbb; cases hbb
    rw [hnone]
    cases hx : t1 D with
    | none => exact ⟨⟨by simp, fun hh => absurd e (hh.2 q b hq)⟩, by simp, fun _ => by simp⟩
    | some x =>
      cases x with
      | dir => exact absurd hx hD
      | file b' => exact ⟨⟨by simp, fun hh => absurd e (hh.2 q b hq)⟩, by simp, fun _ => by simp⟩
  · have hnb : ∀ q b, q <+: D → t q ≠ some (.file b) := by
      intro q b hq e
      have := (blocked_iff t D).2 ⟨q, b, hq, e⟩
      rw [hb] at this; cases this
    have hpl : t1 (D ++ [n]) = t (D ++ [n]) := by rw [h1, if_neg hnp]
    rw [hpl, h1 D, if_pos List.prefix_rfl]
    cases ht : t (D ++ [n]) with
    | none =>
      simp only [Option.isSome_none, Bool.false_eq_true, if_false, true_and]
      refine ⟨by simpa using hnb, fun _ q => ?_, by simp⟩
      by_cases hq : q = D ++ [n]
      · rw [if_pos hq, if_pos hq]
      · rw [if_neg hq, if_neg hq, h1]
    | some x =>
      simp only [Option.isSome_some, if_true, Bool.false_eq_true, reduceCtorEq, false_and, false_implies,
        true_and, forall_const]
      funext q
      rw [h1]
      split
      · rename_i hq
        obtain ⟨r, rfl⟩ := hq
        rw [List.append_assoc] at ht
        exact (wf_prefix h q (r ++ [n]) (by simp) (by rw [ht]; simp)).symm
      · rfl

/-- The hypotheses hold for a process in "/home" with an application on "my/dbs" that is not there yet; New succeeds. -/
example : ∃ (cwd : List Name) (dirPath : Name) (t : Tree) (n : Name), dirPath ≠ [] ∧ t.WF ∧ PlainName n ∧
    resolve cwd dirPath = ["home".toList, "my".toList, "dbs".toList] ∧ t (resolve cwd dirPath) = none ∧
    (Dirs.new cwd dirPath t n).1 = true := by
  let t : Tree := fun q => if q = [] ∨ q = ["home".toList] then some .dir else none
  have hwf : t.WF := by
    refine ⟨by simp [t], fun p c hne => ?_⟩
    have : p = [] := by
      by_contra hp
      apply hne
      have h1 : p ++ [c] ≠ [] := by simp
      have h2 : p ++ [c] ≠ ["home".toList] := by
        intro e
        have := congrArg List.length e
        simp at this
        exact hp this
      show (if p ++ [c] = [] ∨ p ++ [c] = ["home".toList] then some Node.dir else none) = none
      rw [if_neg (not_or.2 ⟨h1, h2⟩)]
    subst this
    simp [t]
  have hn : PlainName "first".toList := by simp [PlainName]
  refine ⟨["home".toList], "my/dbs".toList, t, "first".toList, by decide, hwf, hn, by decide, by decide, ?_⟩
  rw [(C145_new_exactly_partial _ _ (by decide) t hwf _ hn).1]
  refine ⟨by decide, fun q b _ => ?_⟩
  show (if q = [] ∨ q = ["home".toList] then some Node.dir else none) ≠ _
  split <;> simp

/-- **C145 is false of the code**: an application without a directory (which opens databases in the current one) never creates any; and
names that lead through a directory that is not there cannot be created, although nothing is there. -/
theorem C145_negation (cwd : List Name) (t : Tree) :
    (∀ n, (Dirs.new cwd [] t n).1 = false) ∧
    ∀ dirPath a n, dirPath ≠ [] → PlainName a → PlainName n → t.WF →
      t (resolve cwd dirPath ++ [a]) ≠ some .dir → (Dirs.new cwd dirPath t (a ++ '/' :: n)).1 = false := by
  refine ⟨fun n => ?_, fun dirPath a n hd ha hn hwf hne => ?_⟩
  · simp [Dirs.new, newDir, stat, mkdirAll]
  · have hj := joinPath_ne dirPath (a ++ '/' :: n) hd
    obtain ⟨t1, e1, h1⟩ := newDir_is cwd dirPath t hwf hd
    have hres : resolve cwd (joinPath dirPath (a ++ '/' :: n)) = resolve cwd dirPath ++ [a] ++ [n] := by
      rw [resolve_join cwd dirPath _ hd, pathParts_append, pathParts_plain ha.2.1, pathParts_plain hn.2.1]
      simp [pathPush_plain ha, pathPush_plain hn]
    unfold Dirs.new
    rw [e1]
    simp only [stat, if_neg hj, create, hres, List.dropLast_concat]
    generalize resolve cwd dirPath = D at *
    have ht1 : t1 (D ++ [a]) ≠ some .dir := by
      rcases h1 with ⟨_, rfl⟩ | ⟨_, h1⟩
      · exact hne
      · rw [h1, if_neg (by
          rintro ⟨r, hr⟩
          have := congrArg List.length hr
          simp at this)]
        exact hne
    split
    · rfl
    · split
      · rfl
      · rename_i t2 e2
        split at e2
        · rename_i e3; exact absurd e3 ht1
        · cases e2

/-! ### C146 -/

/-- C146, what does hold: of a name that stands for no directory, Exists, Delete and Open say the same, Open shows what is in the file, and
New does not touch what is there. Missing from the full claim: names that stand for directories. -/
theorem C146_calls_agree_partial (cfg : Cfg) (cwd : List Name) (dirPath : Name) (hd : dirPath ≠ []) (t : Tree) (h : t.WF) (n : Name)
    (hf : t (resolve cwd (joinPath dirPath n)) ≠ some .dir) :
    (Dirs.exists' cwd dirPath t n = true ↔ ∃ b, t (resolve cwd (joinPath dirPath n)) = some (.file b)) ∧
    (Dirs.exists' cwd dirPath t n = true ↔ (Dirs.delete cwd dirPath t n).1 = true) ∧
    (Dirs.exists' cwd dirPath t n = false → Dirs.open' cfg cwd dirPath t n = .err ∧ (Dirs.delete cwd dirPath t n).2 = t) ∧
    ∀ b, t (resolve cwd (joinPath dirPath n)) = some (.file b) →
      Dirs.open' cfg cwd dirPath t n = retrieveReference cfg b ∧ (Dirs.new cwd dirPath t n).1 = false ∧
      (Dirs.new cwd dirPath t n).2 (resolve cwd (joinPath dirPath n)) = some (.file b) ∧
      ∀ q, (Dirs.delete cwd dirPath t n).2 q = if q = resolve cwd (joinPath dirPath n) then none else t q := by
  have hj := joinPath_ne dirPath n hd
  unfold Dirs.exists' Dirs.delete Dirs.open' retrieve
  simp only [stat, if_neg hj]
  cases e : t (resolve cwd (joinPath dirPath n)) with
  | none => simp
  | some x =>
    cases x with
    | dir => exact absurd e hf
    | file b =>
      refine ⟨by simp, by simp, by simp, fun b' hb' => ?_⟩
      cases hb'
      obtain ⟨t1, e1, h1⟩ := newDir_is cwd dirPath t h hd
      have hkeep : t1 (resolve cwd (joinPath dirPath n)) = some (.file b) := by
        rcases h1 with ⟨_, rfl⟩ | ⟨hb, h1⟩
        · exact e
        · rw [h1, if_neg, e]
          intro hp
          have := (blocked_iff t _).2 ⟨_, b, hp, e⟩
          rw [hb] at this; cases this
      have hnew : Dirs.new cwd dirPath t n = (false, t1) := by
        unfold Dirs.new
        rw [e1]
        simp [stat, hj, hkeep]
      rw [hnew]
      exact ⟨rfl, rfl, hkeep, fun q => rfl⟩

/-- C146: the life of a name of one part: created, it exists, opens as an empty database and cannot be created again; deleted, it does
not exist, does not open and everything is as it was but for the directories that were made. -/
theorem C146_life_partial (cfg : Cfg) (cwd : List Name) (dirPath : Name) (hd : dirPath ≠ []) (t t1 : Tree) (h : t.WF) (n : Name)
    (hn : PlainName n) (hnew : Dirs.new cwd dirPath t n = (true, t1)) :
    Dirs.exists' cwd dirPath t n = false ∧ Dirs.exists' cwd dirPath t1 n = true ∧ Dirs.open' cfg cwd dirPath t1 n = .ok (none, 0) ∧
    (Dirs.new cwd dirPath t1 n).1 = false ∧
    ∃ t2, Dirs.delete cwd dirPath t1 n = (true, t2) ∧ Dirs.exists' cwd dirPath t2 n = false ∧ Dirs.open' cfg cwd dirPath t2 n = .err ∧
      ∀ q, t2 q = if q <+: resolve cwd dirPath then some .dir else t q := by
  obtain ⟨a1, a2, _⟩ := C145_new_exactly_partial cwd dirPath hd t h n hn
  rw [hnew] at a1 a2
  obtain ⟨hnone, _⟩ := a1.1 rfl
  have a2 := a2 rfl
  simp only at a2
  have hj := joinPath_ne dirPath n hd
  have hres := resolve_plain cwd dirPath hd hn
  have hat : t1 (resolve cwd dirPath ++ [n]) = some (.file []) := by rw [a2, if_pos rfl]
  have hnd : ∃ t', newDir cwd dirPath t1 = some t' ∧ t' (resolve cwd dirPath ++ [n]) = some (.file []) := by
    have hD : t1 (resolve cwd dirPath) = some .dir := by
      rw [a2, if_neg (by
        intro e
        have := congrArg List.length e
        simp at this), if_pos List.prefix_rfl]
    unfold newDir stat
    rw [if_neg hd, hD]
    exact ⟨t1, by simp, hat⟩
  obtain ⟨t', e', hat'⟩ := hnd
  refine ⟨?_, ?_, ?_, ?_, fun q => if q = resolve cwd dirPath ++ [n] then none else t1 q, ?_, ?_, ?_, fun q => ?_⟩
  · simp [Dirs.exists', stat, hj, hres, hnone]
  · simp [Dirs.exists', stat, hj, hres, hat]
  · simp [Dirs.open', retrieve, stat, hj, hres, hat, retrieveReference_nil]
  · unfold Dirs.new
    rw [e']
    simp [stat, hj, hres, hat']
  · simp [Dirs.delete, stat, hj, hres, hat]
  · simp [Dirs.exists', stat, hj, hres]
  · simp [Dirs.open', retrieve, stat, hj, hres]
  · simp only
    by_cases hq : q = resolve cwd dirPath ++ [n]
    · subst hq
      rw [if_pos rfl, if_neg (by
        rintro ⟨r, hr⟩
        have := congrArg List.length hr
        simp at this), hnone]
    · rw [if_neg hq, a2, if_neg hq]

/-- **C146 is false of the code**: wherever the directory of the application is, "." is a name that does not exist, cannot be deleted and
cannot be created, and opens as an empty database; so is the name of every directory in it. -/
theorem C146_negation (cfg : Cfg) (cwd : List Name) (dirPath : Name) (hd : dirPath ≠ []) (t : Tree) (h : t.WF)
    (hdir : t (resolve cwd dirPath) = some .dir) (n : Name)
    (hn : n = ['.'] ∨ (PlainName n ∧ t (resolve cwd dirPath ++ [n]) = some .dir)) :
    Dirs.open' cfg cwd dirPath t n = .ok (none, 0) ∧ Dirs.exists' cwd dirPath t n = false ∧
      Dirs.delete cwd dirPath t n = (false, t) ∧ Dirs.new cwd dirPath t n = (false, t) := by
  have hj := joinPath_ne dirPath n hd
  have hat : t (resolve cwd (joinPath dirPath n)) = some .dir := by
    rcases hn with rfl | ⟨hn, hat⟩
    · rw [resolve_join cwd dirPath _ hd, pathParts_plain (by decide)]
      simpa [pathPush] using hdir
    · rw [resolve_plain cwd dirPath hd hn]; exact hat
  have hnd : newDir cwd dirPath t = some t := by
    unfold newDir stat
    rw [if_neg hd, hdir]
    simp
  refine ⟨?_, ?_, ?_, ?_⟩
  · simp [Dirs.open', retrieve, stat, hj, hat]
  · simp [Dirs.exists', stat, hj, hat]
  · simp [Dirs.delete, stat, hj, hat]
  · unfold Dirs.new
    rw [hnd]
    simp [stat, hj, hat]

/-- A tree: the directory "/db", in it the file "a" of three bytes and the directory "old". -/
def sampleDirs : Tree := fun q =>
  if q = [] ∨ q = ["db".toList] ∨ q = ["db".toList, "old".toList] then some .dir
  else if q = ["db".toList, "a".toList] then some (.file [1, 2, 3])
  else none

theorem sampleDirs_wf : sampleDirs.WF := by
  refine ⟨by simp [sampleDirs], fun p c hne => ?_⟩
  have hp : p = [] ∨ p = ["db".toList] := by
    by_contra hp
    rw [not_or] at hp
    apply hne
    have key : ∀ a b : Name, p ++ [c] ≠ [] ∧ p ++ [c] ≠ [a] ∧ (p ++ [c] = ["db".toList, b] → False) := by
      intro a b
      refine ⟨by simp, fun e => hp.1 ?_, fun e => hp.2 ?_⟩
      · have := congrArg List.dropLast e
        simpa using this
      · have := congrArg List.dropLast e
        simpa using this
    unfold sampleDirs
    rw [if_neg, if_neg]
    · exact (key [] "a".toList).2.2
    · rintro (e | e | e)
      · exact (key [] []).1 e
      · exact (key "db".toList []).2.1 e
      · exact (key [] "old".toList).2.2 e
  rcases hp with rfl | rfl
  · simp [sampleDirs]
  · simp [sampleDirs]

/-- The hypotheses of `C146_calls_agree_partial` hold for the file "a" and for a name that stands for nothing. -/
example : sampleDirs.WF ∧ sampleDirs (resolve [] (joinPath "db/".toList "a".toList)) = some (.file [1, 2, 3]) ∧
    sampleDirs (resolve [] (joinPath "db/".toList "b".toList)) = none := ⟨sampleDirs_wf, by decide, by decide⟩

/-- Those of `C146_life_partial` hold for the name "b". -/
example : ∃ t1, PlainName "b".toList ∧ Dirs.new [] "db/".toList sampleDirs "b".toList = (true, t1) := by
  refine ⟨(Dirs.new [] "db/".toList sampleDirs "b".toList).2, by simp [PlainName], ?_⟩
  have := (C145_new_exactly_partial [] "db/".toList (by decide) sampleDirs sampleDirs_wf "b".toList (by simp [PlainName])).1.2
    ⟨by decide, fun q b hq => by
      have hq : q <+: ["db".toList] := hq
      rcases q with _ | ⟨x, _ | ⟨y, r⟩⟩
      · simp [sampleDirs]
      · obtain ⟨r, hr⟩ := hq
        simp only [List.cons_append, List.nil_append, List.cons.injEq] at hr
        rw [hr.1]
        simp [sampleDirs]
      · obtain ⟨r', hr⟩ := hq
        simp at hr⟩
  exact Prod.ext this rfl

/-- Those of `C146_negation` hold for "." and for "old". -/
example : sampleDirs (resolve [] "db/".toList) = some .dir ∧ PlainName "old".toList ∧
    sampleDirs (resolve [] "db/".toList ++ ["old".toList]) = some .dir := ⟨by decide, by simp [PlainName], by decide⟩

/-- Those of `C145_negation` hold for the names "x/y" (no "x") and "a/y" ("a" is a file). -/
example : sampleDirs (resolve [] "db".toList ++ ["x".toList]) ≠ some .dir ∧
    sampleDirs (resolve [] "db".toList ++ ["a".toList]) ≠ some .dir := by
  have h1 : sampleDirs (resolve [] "db".toList ++ ["x".toList]) = none := by decide
  have h2 : sampleDirs (resolve [] "db".toList ++ ["a".toList]) = some (.file [1, 2, 3]) := by decide
  rw [h1, h2]
  simp

end Props
end Rodkina
