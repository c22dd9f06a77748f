import Verif.DatabaseHistory
/-!
# Paths: the files the names of databases stand for

The paths of the database are `filepath.Join(app.dirPath, name)` (libs/databases/infrastructure/files/application.go:80, 98, 115, 144, 177, 520, 524,
557, 581). `filepath.Join` and `filepath.Clean` belong to Go's library, not to the repository; they are modelled here from their
documentation, for systems whose separator is a slash. Names are lists of characters; a character is a byte of the name.
-/

namespace Rodkina
namespace DB

/-- The parts between slashes (used by `filepath.Clean` in libs/databases/infrastructure/files/application.go:80, 98, 115, 144, 177, 520, 524, 557, 581). -/
def pathParts : Name → List Name
  | [] => [[]]
  | c :: cs =>
    if c = '/' then [] :: pathParts cs
    else match pathParts cs with
      | [] => [[c]]
      | x :: xs => (c :: x) :: xs

/-- One part (the documented rules of `filepath.Clean`, called through libs/databases/infrastructure/files/application.go:80, 98, 115, 144, 177, 520,
524, 557, 581): empty parts and `.` are dropped, `..` takes the part before it away, at the root it is dropped. The parts so far are
in reverse. -/
def pathPush (rooted : Bool) (parts : List Name) (p : Name) : List Name :=
  if p = [] ∨ p = ['.'] then parts
  else if p = ['.', '.'] then
    match parts with
    | [] => if rooted then [] else [p]
    | top :: rest => if top = ['.', '.'] then p :: parts else rest
  else p :: parts

/-- The parts with slashes between them (the end of `filepath.Clean`, called through
libs/databases/infrastructure/files/application.go:80, 98, 115, 144, 177, 520, 524, 557, 581). -/
def pathJoin : List Name → Name
  | [] => []
  | [p] => p
  | p :: q :: r => p ++ '/' :: pathJoin (q :: r)

/-- `filepath.Clean` (called through libs/databases/infrastructure/files/application.go:80, 98, 115, 144, 177, 520, 524, 557, 581). -/
def cleanPath (p : Name) : Name :=
  let rooted := decide (p.head? = some '/')
  let body := pathJoin ((pathParts p).foldl (pathPush rooted) []).reverse
  if rooted then '/' :: body
  else if body = [] then ['.']
  else body

/-- `filepath.Join` of two elements (libs/databases/infrastructure/files/application.go:80, 98, 115, 144, 177, 520, 524, 557, 581): the first
elements that are empty are left out. -/
def joinPath (dir name : Name) : Name :=
  if dir ≠ [] then cleanPath (dir ++ '/' :: name)
  else if name ≠ [] then cleanPath name
  else []

/-- A name of one part (specification). -/
def PlainName (n : Name) : Prop := n ≠ [] ∧ '/' ∉ n ∧ n ≠ ['.'] ∧ n ≠ ['.', '.']

theorem pathParts_ne (p : Name) : pathParts p ≠ [] := by
  cases p with
  | nil => simp [pathParts]
  | cons c cs =>
    unfold pathParts
    split
    · simp
    · split <;> simp

theorem pathParts_plain {n : Name} (h : '/' ∉ n) : pathParts n = [n] := by
  induction n with
  | nil => rfl
  | cons c cs ih =>
    rw [List.mem_cons, not_or] at h
    unfold pathParts
    rw [if_neg (fun e => h.1 e.symm), ih h.2]

theorem pathParts_append (a b : Name) : pathParts (a ++ '/' :: b) = pathParts a ++ pathParts b := by
  induction a with
  | nil => simp [pathParts]
  | cons c cs ih =>
    by_cases hc : c = '/'
    · subst hc
      simp [pathParts, ih]
    · rw [List.cons_append, pathParts, if_neg hc, ih, pathParts, if_neg hc]
      cases h : pathParts cs with
      | nil => exact absurd h (pathParts_ne _)
      | cons x xs => rfl

theorem pathJoin_snoc (l : List Name) (n : Name) (h : l ≠ []) : pathJoin (l ++ [n]) = pathJoin l ++ '/' :: n := by
  induction l with
  | nil => exact absurd rfl h
  | cons p q ih =>
    cases q with
    | nil => rfl
    | cons q r =>
      rw [List.cons_append, List.cons_append, pathJoin, ← List.cons_append, ih (by simp), pathJoin]
      simp

theorem pathPush_plain {n : Name} (h : PlainName n) (rooted : Bool) (l : List Name) : pathPush rooted l n = n :: l := by
  unfold pathPush
  rw [if_neg (by simp [h.1, h.2.2.1]), if_neg h.2.2.2]

/-- The parts of a directory, in reverse (specification; the `dirPath` of libs/databases/infrastructure/files/application.go:80). -/
def dirParts (dir : Name) : List Name :=
  if dir = [] then [] else (pathParts dir).foldl (pathPush (decide (dir.head? = some '/'))) []

/-- What stands in front of plain names (specification; the `dirPath` of libs/databases/infrastructure/files/application.go:80). -/
def dirPrefix (dir : Name) : Name :=
  (if dir.head? = some '/' then ['/'] else []) ++
    (if dirParts dir = [] then [] else pathJoin (dirParts dir).reverse ++ ['/'])

theorem joinPath_tail (dir rest : Name) (hr : rest.head? ≠ some '/') (hne : rest ≠ []) :
    joinPath dir rest =
      (let body := pathJoin ((pathParts rest).foldl (pathPush (decide (dir.head? = some '/'))) (dirParts dir)).reverse
       if dir.head? = some '/' then '/' :: body else if body = [] then ['.'] else body) := by
  unfold joinPath
  by_cases hd : dir = []
  · subst hd
    simp only [ne_eq, not_true_eq_false, if_false, hne, not_false_eq_true, if_true, cleanPath, hr, decide_false,
      List.head?_nil, Bool.false_eq_true, dirParts]
    simp
  · rw [if_pos hd]
    have hh : (dir ++ '/' :: rest).head? = dir.head? := by
      cases dir with
      | nil => exact absurd rfl hd
      | cons c cs => rfl
    unfold cleanPath dirParts
    rw [hh, pathParts_append, if_neg hd]
    simp only [List.foldl_append]
    by_cases hs : dir.head? = some '/' <;> simp [hs]

theorem pathJoin_plain (l : List Name) (n : Name) :
    pathJoin (l ++ [n]) = (if l = [] then [] else pathJoin l ++ ['/']) ++ n := by
  by_cases h : l = []
  · subst h; simp [pathJoin]
  · rw [pathJoin_snoc l n h, if_neg h]; simp

/-- The file of a plain name. -/
theorem joinPath_plain (dir : Name) {n : Name} (h : PlainName n) : joinPath dir n = dirPrefix dir ++ n := by
  have hn : n.head? ≠ some '/' := by
    intro e
    cases n with
    | nil => cases e
    | cons c cs => simp at e; exact h.2.1 (by simp [e])
  rw [joinPath_tail dir n hn h.1, pathParts_plain h.2.1]
  simp only [List.foldl_cons, List.foldl_nil, pathPush_plain h, List.reverse_cons, pathJoin_plain, List.reverse_eq_nil_iff]
  unfold dirPrefix
  have hb : ¬ ((if dirParts dir = [] then [] else pathJoin (dirParts dir).reverse ++ ['/']) ++ n = []) := by
    simp [h.1]
  by_cases hs : dir.head? = some '/'
  · simp [hs]
  · simp only [hs, if_false, hb, List.nil_append]

/-- Parts before a plain name. -/
theorem joinPath_parts (dir a : Name) {n : Name} (h : PlainName n) (ha : a.head? ≠ some '/') (hne : a ≠ []) :
    joinPath dir (a ++ '/' :: n) =
      (let l := (pathParts a).foldl (pathPush (decide (dir.head? = some '/'))) (dirParts dir)
       (if dir.head? = some '/' then ['/'] else []) ++ ((if l = [] then [] else pathJoin l.reverse ++ ['/']) ++ n)) := by
  have h1 : (a ++ '/' :: n).head? ≠ some '/' := by
    cases a with
    | nil => exact absurd rfl hne
    | cons c cs => exact ha
  rw [joinPath_tail dir _ h1 (by simp), pathParts_append, pathParts_plain h.2.1]
  simp only [List.foldl_append, List.foldl_cons, List.foldl_nil, pathPush_plain h, List.reverse_cons, pathJoin_plain,
    List.reverse_eq_nil_iff]
  have hb : ∀ l : List Name, ¬ ((if l = [] then [] else pathJoin l.reverse ++ ['/']) ++ n = []) := by
    intro l; simp [h.1]
  by_cases hs : dir.head? = some '/'
  · simp [hs]
  · simp only [hs, if_false, hb, List.nil_append]

theorem PlainName.ext {n e : Name} (h : PlainName n) (he : '/' ∉ e) : PlainName (n ++ '.' :: e) := by
  obtain ⟨h1, h2, h3, h4⟩ := h
  refine ⟨by simp, ?_, ?_, ?_⟩
  · simp [h2, he]
  · intro e'
    cases n with
    | nil => exact h1 rfl
    | cons c cs => simp at e'
  · intro e'
    rcases n with _ | ⟨c, cs⟩
    · exact h1 rfl
    · simp only [List.cons_append, List.cons.injEq] at e'
      obtain ⟨rfl, e'⟩ := e'
      cases cs with
      | nil => exact h3 rfl
      | cons d ds => simp at e'

end DB
end Rodkina
