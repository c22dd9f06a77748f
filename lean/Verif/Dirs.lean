import Verif.Paths
import Mathlib.Data.List.Infix
import Mathlib.Data.List.Induction
/-!
# Directories: Exists, New, Delete and Open on a tree of files and directories

The model of the database application (`Database`) has files only. Here are the four calls that look at directories, on a tree of files
and directories, with relative paths, missing directories and names that lead through directories. Simplified: there are no symbolic
links, permissions or other processes, and `..` in the directory of the application is resolved in its text.
-/

namespace Rodkina
namespace Dirs

open DB

/-- What is at a place (`fileInfo.IsDir`, libs/databases/infrastructure/files/application.go:83, 122). -/
inductive Node
  | file (b : Bytes)
  | dir
deriving DecidableEq

/-- The tree of an operating system (os.Stat, os.MkdirAll, os.Create, os.Remove and os.Open in
libs/databases/infrastructure/files/application.go:81-178): what is at each place, the place being the names from the root. -/
abbrev Tree := List Name → Option Node

/-- Whatever is somewhere is in directories (specification). -/
structure Tree.WF (t : Tree) : Prop where
  root : t [] = some .dir
  up : ∀ p c, t (p ++ [c]) ≠ none → t p = some .dir

/-- The place a path stands for when the process runs in the directory `cwd` (paths given to the operating system in
libs/databases/infrastructure/files/application.go:81, 91, 92, 99, 105, 116, 127, 145, 178). -/
def resolve (cwd : List Name) (path : Name) : List Name :=
  ((pathParts path).foldl (pathPush true) (if path.head? = some '/' then [] else cwd.reverse)).reverse

/-- `os.Stat` (libs/databases/infrastructure/files/application.go:81, 91, 99, 116): the empty path stands for nothing. -/
def stat (cwd : List Name) (t : Tree) (path : Name) : Option Node :=
  if path = [] then none else t (resolve cwd path)

/-- Is a file in the way of the place? (`errors.Is(err, os.ErrNotExist)` is false then, libs/databases/infrastructure/files/application.go:91.) -/
def blocked (t : Tree) (p : List Name) : Bool :=
  p.inits.any (fun q => match t q with
    | some (.file _) => true
    | _ => false)

/-- `os.MkdirAll` (libs/databases/infrastructure/files/application.go:92). -/
def mkdirAll (cwd : List Name) (t : Tree) (path : Name) : Option Tree :=
  if path = [] then none
  else if blocked t (resolve cwd path) then none
  else some (fun q => if q <+: resolve cwd path then some .dir else t q)

/-- `os.Create` (libs/databases/infrastructure/files/application.go:105) at a place where nothing is: the directory must be there. -/
def create (cwd : List Name) (t : Tree) (path : Name) : Option Tree :=
  if path = [] then none
  else match t (resolve cwd path).dropLast with
    | some .dir => some (fun q => if q = resolve cwd path then some (.file []) else t q)
    | _ => none

/-- `Exists`, libs/databases/infrastructure/files/application.go:79-87. -/
def exists' (cwd : List Name) (dirPath : Name) (t : Tree) (name : Name) : Bool :=
  match stat cwd t (joinPath dirPath name) with
  | some (.file _) => true
  | _ => false

/-- `New` up to the directory, libs/databases/infrastructure/files/application.go:91-96. -/
def newDir (cwd : List Name) (dirPath : Name) (t : Tree) : Option Tree :=
  if (stat cwd t dirPath).isNone && (dirPath.isEmpty || !blocked t (resolve cwd dirPath)) then mkdirAll cwd t dirPath
  else some t

/-- `New`, libs/databases/infrastructure/files/application.go:90-111: whether it succeeds, and the tree afterwards. -/
def new (cwd : List Name) (dirPath : Name) (t : Tree) (name : Name) : Bool × Tree :=
  match newDir cwd dirPath t with
  | none => (false, t)
  | some t1 =>
    if (stat cwd t1 (joinPath dirPath name)).isSome then (false, t1)
    else match create cwd t1 (joinPath dirPath name) with
      | none => (false, t1)
      | some t2 => (true, t2)

/-- `Delete`, libs/databases/infrastructure/files/application.go:114-128: whether it succeeds, and the tree afterwards. -/
def delete (cwd : List Name) (dirPath : Name) (t : Tree) (name : Name) : Bool × Tree :=
  match stat cwd t (joinPath dirPath name) with
  | some (.file _) => (true, fun q => if q = resolve cwd (joinPath dirPath name) then none else t q)
  | _ => (false, t)

/-- `retrieveReference`, libs/databases/infrastructure/files/application.go:176-232, as called by `Open`: a directory can be opened, reading from
it fails, and that is taken for a file without a reference (lines 187-189). -/
def retrieve (cfg : Cfg) (cwd : List Name) (dirPath : Name) (t : Tree) (name : Name) : Res (Option Ref.Reference × Nat) :=
  match stat cwd t (joinPath dirPath name) with
  | none => .err
  | some .dir => .ok (none, 0)
  | some (.file b) => retrieveReference cfg b

/-- `Open`, libs/databases/infrastructure/files/application.go:131-167, for a name without an open context: what the context shows. -/
def open' (cfg : Cfg) (cwd : List Name) (dirPath : Name) (t : Tree) (name : Name) : Res (Option Ref.Reference × Nat) :=
  retrieve cfg cwd dirPath t name

/-! ## Resolving -/

/-- Names of one part, and `..`, which is all that is left in a cleaned path. -/
def Kept (p : Name) : Prop := p ≠ [] ∧ '/' ∉ p ∧ p ≠ ['.']

theorem pathParts_noslash (p : Name) : ∀ q ∈ pathParts p, '/' ∉ q := by
  induction p with
  | nil => simp [pathParts]
  | cons c cs ih =>
    unfold pathParts
    split
    · intro q hq
      rcases List.mem_cons.1 hq with rfl | hq
      · simp
      · exact ih q hq
    · rename_i hc
      split
      · intro q hq
        rw [List.mem_singleton] at hq
        subst hq
        simpa using fun e => hc e.symm
      · rename_i x xs hx
        rw [hx] at ih
        intro q hq
        rcases List.mem_cons.1 hq with rfl | hq
        · have := ih x (by simp)
          simp only [List.mem_cons, not_or]
          exact ⟨fun e => hc e.symm, this⟩
        · exact ih q (by simp [hq])

theorem pathPush_kept {rooted : Bool} {l : List Name} {p : Name} (hl : ∀ q ∈ l, Kept q) (hp : '/' ∉ p) :
    ∀ q ∈ pathPush rooted l p, Kept q := by
  unfold pathPush
  by_cases h1 : p = [] ∨ p = ['.']
  · rw [if_pos h1]; exact hl
  · rw [if_neg h1]
    rw [not_or] at h1
    have hk : Kept p := ⟨h1.1, hp, h1.2⟩
    by_cases h2 : p = ['.', '.']
    · rw [if_pos h2]
      cases l with
      | nil =>
        cases rooted
        · intro q hq
          simp only [Bool.false_eq_true, if_false, List.mem_singleton] at hq
          subst hq; exact hk
        · simp
      | cons top rest =>
        simp only
        split
        · intro q hq
          rcases List.mem_cons.1 hq with rfl | hq
          · exact hk
          · exact hl q hq
        · exact fun q hq => hl q (by simp [hq])
    · rw [if_neg h2]
      intro q hq
      rcases List.mem_cons.1 hq with rfl | hq
      · exact hk
      · exact hl q hq

theorem foldl_kept {rooted : Bool} (ps : List Name) : ∀ (l : List Name), (∀ q ∈ l, Kept q) → (∀ p ∈ ps, '/' ∉ p) →
    ∀ q ∈ ps.foldl (pathPush rooted) l, Kept q := by
  induction ps with
  | nil => intro l hl _; exact hl
  | cons p ps ih =>
    intro l hl hp
    exact ih _ (pathPush_kept hl (hp p (by simp))) (fun q hq => hp q (by simp [hq]))

/-- Cleaning a relative path first makes no difference to where it leads. -/
theorem push_clean {rooted : Bool} {st : List Name} {p : Name} (hst : ∀ q ∈ st, Kept q) (base : List Name)
    (hr : rooted = true → base = []) :
    (pathPush rooted st p).reverse.foldl (pathPush true) base = pathPush true (st.reverse.foldl (pathPush true) base) p := by
  by_cases h1 : p = [] ∨ p = ['.']
  · have e : ∀ b l, pathPush b l p = l := fun b l => by unfold pathPush; rw [if_pos h1]
    rw [e, e]
  · by_cases h2 : p = ['.', '.']
    · subst h2
      cases st with
      | nil =>
        cases rooted with
        | false => simp [pathPush]
        | true =>
          have := hr rfl
          subst this
          simp [pathPush]
      | cons top rest =>
        by_cases h3 : top = ['.', '.']
        · have e : pathPush rooted (top :: rest) ['.', '.'] = ['.', '.'] :: top :: rest := by
            unfold pathPush
            simp [h3]
          rw [e, List.reverse_cons, List.foldl_append]
          rfl
        · have e : pathPush rooted (top :: rest) ['.', '.'] = rest := by
            unfold pathPush
            simp [h3]
          have hk := hst top (by simp)
          rw [e, List.reverse_cons, List.foldl_append]
          simp only [List.foldl_cons, List.foldl_nil]
          have e2 : ∀ l, pathPush true l top = top :: l := by
            intro l
            unfold pathPush
            rw [if_neg (by simp [hk.1, hk.2.2]), if_neg h3]
          rw [e2]
          unfold pathPush
          simp [h3]
    · have e : ∀ b l, pathPush b l p = p :: l := fun b l => by unfold pathPush; rw [if_neg h1, if_neg h2]
      rw [e, List.reverse_cons, List.foldl_append]
      rfl

theorem foldl_clean {rooted : Bool} (ps : List Name) : ∀ (st base : List Name), (∀ q ∈ st, Kept q) → (∀ p ∈ ps, '/' ∉ p) →
    (rooted = true → base = []) →
    (ps.foldl (pathPush rooted) st).reverse.foldl (pathPush true) base = ps.foldl (pathPush true) (st.reverse.foldl (pathPush true) base) := by
  induction ps with
  | nil => intro st base _ _ _; rfl
  | cons p ps ih =>
    intro st base hst hp hr
    rw [List.foldl_cons, List.foldl_cons, ih _ base (pathPush_kept hst (hp p (by simp))) (fun q hq => hp q (by simp [hq])) hr,
      push_clean hst base hr]

theorem pathParts_join : (l : List Name) → l ≠ [] → (∀ q ∈ l, '/' ∉ q) → pathParts (pathJoin l) = l
  | [], h, _ => absurd rfl h
  | [p], _, h => by rw [pathJoin]; exact pathParts_plain (h p (by simp))
  | p :: q :: r, _, h => by
    rw [pathJoin, pathParts_append, pathParts_plain (h p (by simp)), pathParts_join (q :: r) (by simp) (fun x hx => h x (by simp [hx]))]
    rfl

/-- A cleaned path leads where the path leads. -/
theorem resolve_clean (cwd : List Name) (s : Name) : resolve cwd (cleanPath s) = resolve cwd s := by
  have hns := pathParts_noslash s
  by_cases hr : s.head? = some '/'
  · have hk := foldl_kept (rooted := true) (pathParts s) [] (by simp) hns
    have hc := foldl_clean (rooted := true) (pathParts s) [] [] (by simp) hns (fun _ => rfl)
    have he : cleanPath s = '/' :: pathJoin ((pathParts s).foldl (pathPush true) []).reverse := by simp [cleanPath, hr]
    unfold resolve
    rw [he, hr]
    simp only [List.head?_cons, if_true]
    rw [show pathParts ('/' :: pathJoin ((pathParts s).foldl (pathPush true) []).reverse) =
      [] :: pathParts (pathJoin ((pathParts s).foldl (pathPush true) []).reverse) from by rw [pathParts]; simp]
    rw [List.foldl_cons, show pathPush true [] [] = [] from by simp [pathPush]]
    by_cases hn : (pathParts s).foldl (pathPush true) [] = []
    · rw [hn]; simp [pathJoin, pathParts, pathPush]
    · rw [pathParts_join _ (by simpa using hn) (fun q hq => (hk q (by simpa using hq)).2.1), hc]
      rfl
  · have hk := foldl_kept (rooted := false) (pathParts s) [] (by simp) hns
    have hc := foldl_clean (rooted := false) (pathParts s) [] cwd.reverse (by simp) hns (by simp)
    simp only [List.reverse_nil, List.foldl_nil] at hc
    unfold resolve
    rw [if_neg hr, ← hc]
    by_cases hn : (pathParts s).foldl (pathPush false) [] = []
    · have he : cleanPath s = ['.'] := by simp [cleanPath, hr, hn, pathJoin]
      rw [he, hn, if_neg (by decide)]
      simp [pathParts, pathPush]
    · have hj : pathParts (pathJoin ((pathParts s).foldl (pathPush false) []).reverse) = ((pathParts s).foldl (pathPush false) []).reverse :=
        pathParts_join _ (by simpa using hn) (fun q hq => (hk q (by simpa using hq)).2.1)
      generalize hl : ((pathParts s).foldl (pathPush false) []).reverse = l at *
      have hkl : ∀ q ∈ l, Kept q := by
        intro q hq
        rw [← hl] at hq
        exact hk q (by simpa using hq)
      have hhead : (pathJoin l).head? ≠ some '/' ∧ pathJoin l ≠ [] := by
        cases l with
        | nil => exact absurd (by simpa using hl) hn
        | cons p r =>
          have hp := hkl p (by simp)
          obtain ⟨c, cs, rfl⟩ : ∃ c cs, p = c :: cs := List.exists_cons_of_ne_nil hp.1
          have hcs : c ≠ '/' := fun e => hp.2.1 (by simp [e])
          cases r with
          | nil => simpa [pathJoin] using hcs
          | cons q r => simpa [pathJoin] using hcs
      have he : cleanPath s = pathJoin l := by
        unfold cleanPath
        simp only [hr, decide_false, Bool.false_eq_true, if_false, hl, hhead.2]
      rw [he, if_neg hhead.1, hj]

/-- The place of a name in the application's directory. -/
theorem resolve_join (cwd : List Name) (dirPath name : Name) (hd : dirPath ≠ []) :
    resolve cwd (joinPath dirPath name) = ((pathParts name).foldl (pathPush true) (resolve cwd dirPath).reverse).reverse := by
  unfold joinPath
  rw [if_pos hd, resolve_clean]
  unfold resolve
  have hh : (dirPath ++ '/' :: name).head? = dirPath.head? := by
    cases dirPath with
    | nil => exact absurd rfl hd
    | cons c cs => rfl
  rw [hh, pathParts_append, List.foldl_append, List.reverse_reverse]

theorem resolve_plain (cwd : List Name) (dirPath : Name) {n : Name} (hd : dirPath ≠ []) (h : PlainName n) :
    resolve cwd (joinPath dirPath n) = resolve cwd dirPath ++ [n] := by
  rw [resolve_join cwd dirPath n hd, pathParts_plain h.2.1]
  simp [pathPush_plain h]

theorem joinPath_ne (dirPath name : Name) (hd : dirPath ≠ []) : joinPath dirPath name ≠ [] := by
  unfold joinPath cleanPath
  rw [if_pos hd]
  simp only
  split
  · simp
  · split
    · simp
    · assumption

/-! ## The calls -/

theorem wf_prefix {t : Tree} (h : t.WF) : ∀ (p q : List Name), p ++ q ≠ p → t (p ++ q) ≠ none → t p = some .dir := by
  intro p q
  induction q using List.reverseRecOn with
  | nil => intro h1 _; simp at h1
  | append_singleton q c ih =>
    intro _ hne
    rw [← List.append_assoc] at hne
    have hq := h.up _ _ hne
    by_cases hqe : q = []
    · subst hqe; simpa using hq
    · exact ih (by simp [hqe]) (by rw [hq]; simp)

theorem blocked_iff (t : Tree) (p : List Name) : blocked t p = true ↔ ∃ q b, q <+: p ∧ t q = some (.file b) := by
  unfold blocked
  rw [List.any_eq_true]
  constructor
  · rintro ⟨q, hq, h⟩
    rw [List.mem_inits] at hq
    split at h
    · rename_i b e; exact ⟨q, b, hq, e⟩
    · cases h
  · rintro ⟨q, b, hq, e⟩
    exact ⟨q, (List.mem_inits ..).2 hq, by rw [e]⟩

theorem not_blocked_present {t : Tree} (h : t.WF) {p : List Name} (hp : t p = some .dir) : blocked t p = false := by
  rw [← Bool.not_eq_true, blocked_iff]
  rintro ⟨q, b, ⟨r, rfl⟩, e⟩
  by_cases hr : r = []
  · subst hr
    rw [List.append_nil] at hp
    rw [hp] at e
    cases e
  · have := wf_prefix h q r (by simpa using hr) (by rw [hp]; simp)
    rw [this] at e
    cases e

/-- What is left of the first part of New: the directory is there, and nothing else changed, unless a file is in the way. -/
theorem newDir_is (cwd : List Name) (dirPath : Name) (t : Tree) (h : t.WF) (hd : dirPath ≠ []) :
    ∃ t1, newDir cwd dirPath t = some t1 ∧
      ((blocked t (resolve cwd dirPath) = true ∧ t1 = t) ∨
       (blocked t (resolve cwd dirPath) = false ∧ ∀ q, t1 q = if q <+: resolve cwd dirPath then some .dir else t q)) := by
  unfold newDir stat mkdirAll
  have he : dirPath.isEmpty = false := by simpa using hd
  rw [if_neg hd, if_neg hd, he, Bool.false_or]
  generalize resolve cwd dirPath = D
  by_cases hb : blocked t D = true
  · rw [hb]
    simp only [Bool.not_true, Bool.and_false, Bool.false_eq_true, if_false]
    exact ⟨t, rfl, .inl ⟨trivial, rfl⟩⟩
  · rw [Bool.not_eq_true] at hb
    rw [hb]
    cases ht : t D with
    | none =>
      simp only [Option.isNone_none, Bool.not_false, Bool.and_self, if_true, Bool.false_eq_true, if_false]
      exact ⟨_, rfl, .inr ⟨trivial, fun q => rfl⟩⟩
    | some x =>
      simp only [Option.isNone_some, Bool.false_and, Bool.false_eq_true, if_false]
      refine ⟨t, rfl, .inr ⟨trivial, fun q => ?_⟩⟩
      split
      · rename_i hq
        obtain ⟨r, rfl⟩ := hq
        by_cases hr : r = []
        · subst hr
          rw [List.append_nil] at ht hb
          cases x with
          | dir => exact ht
          | file b =>
            exact absurd ((blocked_iff t q).2 ⟨q, b, List.prefix_rfl, ht⟩) (by rw [hb]; simp)
        · exact wf_prefix h q r (by simpa using hr) (by rw [ht]; simp)
      · rfl

end Dirs
end Rodkina
