import Verif.Hash
/-!
# Go maps keyed by strings

`map[string]T` as an association list, newest entry first. Only assignment and lookup are used by the modelled code
(iteration order of maps is never observed).
-/

namespace Rodkina

/-- `map[string]T`. -/
abbrev GoMap (β : Type) := List (List Char × β)

namespace GoMap

/-- `m[k]` with its `ok` flag. -/
def get {β : Type} (m : GoMap β) (k : List Char) : Option β := (m.find? (fun p => p.1 == k)).map (·.2)

/-- `m[k] = v`. -/
def set {β : Type} (m : GoMap β) (k : List Char) (v : β) : GoMap β := (k, v) :: m

/-- The loop `for _, x := range list { mp[key(x)] = x }` found in the builders (e.g.
libs/databases/domain/references/contentkeys_builder.go:38-42). -/
def ofList {β : Type} (key : β → List Char) (l : List β) : GoMap β := l.foldl (fun m x => m.set (key x) x) []

theorem get_set {β : Type} (m : GoMap β) (k k' : List Char) (v : β) :
    (m.set k v).get k' = if k = k' then some v else m.get k' := by
  unfold get set
  by_cases h : k = k' <;> simp [h]

theorem get_foldl {β : Type} (key : β → List Char) (l : List β) (m : GoMap β) (k : List Char) :
    get (l.foldl (fun m x => set m (key x) x) m) k =
      match l.reverse.find? (fun x => key x == k) with
      | some x => some x
      | none => m.get k := by
  induction l generalizing m with
  | nil => simp
  | cons x xs ih =>
    simp only [List.foldl_cons, ih, List.reverse_cons, List.find?_append]
    cases h : xs.reverse.find? (fun d => key d == k) with
    | some d => simp
    | none =>
      simp only [Option.none_or]
      rw [get_set]
      by_cases hx : key x = k <;> simp [hx]

/-- Lookup returns the last element of the list with the key. -/
theorem get_ofList {β : Type} (key : β → List Char) (l : List β) (k : List Char) :
    (ofList key l).get k = l.reverse.find? (fun x => key x == k) := by
  unfold ofList
  rw [get_foldl]
  cases l.reverse.find? (fun x => key x == k) <;> simp [get]

end GoMap
end Rodkina
