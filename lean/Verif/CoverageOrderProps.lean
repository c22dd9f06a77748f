import Verif.CoverageOrderLemmas2
import Verif.AstMono
import Verif.CoverageProps
import Verif.ComponentsLemmas

/-!
# Properties: suites and the order of Go maps (C149, C150)
-/

namespace Rodkina.Props

open Rodkina.Ast

/-! ## C149: parsing never looks at suites -/

/-- **C149.** Two grammars that are the same but for the suites of their tokens, at any depth, in channels, conditions and external
grammars, do the same on every input: both give a tree, and it is the same tree but for the suites of the grammar parts it refers to
(so the same bytes are matched and left over), or both refuse, or both panic, or neither ends. -/
theorem C149_suites_do_not_matter (g g' : Grammar) (h : g.SameButSuites g') (input : Bytes) :
    (∀ t, Parses g input (.ok t) → ∃ t', Parses g' input (.ok t') ∧ t'.bare = t.bare ∧ t'.remaining = t.remaining ∧
      t'.isSuccessful = t.isSuccessful ∧ ∀ ch, t'.bytes ch = t.bytes ch) ∧
    (Parses g input .err ↔ Parses g' input .err) ∧
    (Parses g input .panic ↔ Parses g' input .panic) ∧
    (Diverges g input ↔ Diverges g' input) := by
  have key := fun n => execute_like h n input
  refine ⟨?_, ?_, ?_, ?_⟩
  · rintro t ⟨_, n, hn⟩
    have k := key n
    rw [hn] at k
    cases hx : execute n g' input <;> rw [hx] at k <;> simp [Out.map] at k
    rename_i t'
    refine ⟨t', ⟨trivial, n, hx⟩, k.symm, ?_, ?_, fun ch => ?_⟩
    · rw [← Tree.bare_remaining, ← k, Tree.bare_remaining]
    · rw [← Tree.bare_isSuccessful, ← k, Tree.bare_isSuccessful]
    · rw [← Tree.bare_bytes, ← k, Tree.bare_bytes]
  · constructor <;> rintro ⟨_, n, hn⟩ <;> have k := key n <;> rw [hn] at k
    · cases hx : execute n g' input <;> rw [hx] at k <;> simp [Out.map] at k
      exact ⟨trivial, n, hx⟩
    · cases hx : execute n g input <;> rw [hx] at k <;> simp [Out.map] at k
      exact ⟨trivial, n, hx⟩
  · constructor <;> rintro ⟨_, n, hn⟩ <;> have k := key n <;> rw [hn] at k
    · cases hx : execute n g' input <;> rw [hx] at k <;> simp [Out.map] at k
      exact ⟨trivial, n, hx⟩
    · cases hx : execute n g input <;> rw [hx] at k <;> simp [Out.map] at k
      exact ⟨trivial, n, hx⟩
  · constructor <;> intro hd n <;> have k := key n <;> rw [hd n] at k
    · cases hx : execute n g' input <;> rw [hx] at k <;> simp [Out.map] at k
    · cases hx : execute n g input <;> rw [hx] at k <;> simp [Out.map] at k

/-- `S : A 'b'` as `covG`, with other suites inside and outside. -/
def otherG : Grammar :=
  .mk (.mk "S" [.mk [.element 1 (some 1) (.token (.mk "A" [.mk [byteC 97], .mk [byteC 99]] [])), byteC 98]]
    [suiteOf false [99, 98], suiteOf true [97]]) []

theorem otherG_same : covG.SameButSuites otherG := by
  simp [Grammar.SameButSuites, Grammar.Like, covG, otherG, covS, covA, byteC, Token.Like, linesLike, GLine.Like, containersLike,
    Container.Like, Content.Like, channelsLike]

example (input : Bytes) : Parses covG input .err ↔ Parses otherG input .err :=
  (C149_suites_do_not_matter covG otherG otherG_same input).2.1

/-! ## C150: the order of Go maps -/

/-- **C150 (partial).** Two grammars with the same suites, those of each token in some order: when one has coverages so has the other;
they are those of the same tokens in the same order, each with the same tests and the same results in some order; both or none contain
an error; `Covered` reports the same positions; and one has a report of uncovered elements exactly when the other has, and it is the same
report. Missing: the names under which `Covered` reports positions depend on the order (`C150_negation`). -/
theorem C150_reports_partial (g g' : Grammar) (h : g.Reordered g') (n : Nat) :
    (∀ cs, coverages n g = .ok cs → ∃ cs', coverages n g' = .ok cs' ∧ List.Forall₂ SameTests cs cs' ∧
      containsError cs = containsError cs' ∧
      ∀ m, covered cs = .ok m → ∃ m', covered cs' = .ok m' ∧ ∀ p, (m.lookup p).isSome = (m'.lookup p).isSome) ∧
    ∀ r, uncovered n g = .ok r ↔ uncovered n g' = .ok r := by
  refine ⟨fun cs hcs => ?_, fun r => ⟨uncovered_same h, uncovered_same (Grammar.Like.symm (fun _ _ => List.Perm.symm) h)⟩⟩
  obtain ⟨cs', h1, h2⟩ := coverages_like n _ _ h cs hcs
  exact ⟨cs', h1, h2, containsError_same h2, fun m hm => covered_same h2 hm⟩

/-- **C150 (the loop of `Uncovered`).** In whatever order the map of all elements is traversed, the report is the same: that of
`uncovered`. -/
theorem C150_loop (n : Nat) (g : Grammar) (cs : List Coverage) (m : Positions) (hc : coverages n g = .ok cs) (hm : covered cs = .ok m)
    (order : List (Pos × String)) (ho : order.Perm (findElements g [])) :
    ∃ r, uncovered n g = .ok r ∧ ∀ p, (uncoveredLoop m order []).lookup p = r.lookup p := by
  refine ⟨_, by simp only [uncovered, out_bind, andThen_ok, Out.ok.injEq]; exact ⟨cs, hc, m, hm, rfl⟩, fun p => ?_⟩
  have hn := findElements_nodup g
  have hno : (order.map Prod.fst).Nodup := (ho.map Prod.fst).nodup_iff.mpr hn
  rw [uncoveredLoop_lookup m order hno]
  apply Option.ext
  intro v
  have hfil : (((findElements g []).filter (fun e => (m.lookup e.1).isNone)).map Prod.fst).Nodup :=
    hn.sublist (List.filter_sublist.map _)
  rw [lookup_of_nodup hfil, List.mem_filter]
  constructor
  · intro hv
    split at hv
    · rename_i hc
      exact ⟨ho.mem_iff.mp ((lookup_of_nodup hno p v).mp hv), hc.1⟩
    · simp at hv
  · rintro ⟨h1, h2⟩
    have h3 := (lookup_of_nodup hno p v).mpr (ho.mem_iff.mpr h1)
    rw [if_pos ⟨h2, by rw [h3]; rfl⟩, h3]

/-- `S : 'a'? 'b'` with the suites "ab" and "b" in the one order. -/
def optS (ss : List Suite) : Grammar :=
  .mk (.mk "S" [.mk [.element 0 (some 1) (.value "a" 97), .element 1 (some 1) (.value "b" 98)]] ss) []

theorem optS_reordered (ss ss' : List Suite) (h : ss.Perm ss') : (optS ss).Reordered (optS ss') := by
  simp [Grammar.Reordered, Grammar.Like, optS, Token.Like, linesLike, GLine.Like, containersLike, Container.Like, Content.Like,
    channelsLike, h]

/-- What `Covered` reports on the coverages of a grammar. -/
def coveredOf (n : Nat) (g : Grammar) : Out Positions := coverages n g >>= covered

/-- **C150, negation.** The claim for all reports is false: the elements that matched are numbered without the absent ones, and the first
test wins; for `S : 'a'? 'b'` with the suites "ab" and "b" `Covered` calls the first element "a" in the one order and "b" in the other. -/
theorem C150_negation : ∃ (g g' : Grammar) (m m' : Positions), g.Reordered g' ∧ coveredOf 3 g = .ok m ∧ coveredOf 3 g' = .ok m' ∧
    m.lookup ("S", 0, 0) = some "a" ∧ m'.lookup ("S", 0, 0) = some "b" := by
  refine ⟨optS [suiteOf true [97, 98], suiteOf true [98]], optS [suiteOf true [98], suiteOf true [97, 98]], _, _,
    optS_reordered _ _ (List.Perm.swap _ _ _), ok_of_report (r := [(("S", 0, 1), "b"), (("S", 0, 0), "a")]) (by decide +kernel),
    ok_of_report (r := [(("S", 0, 1), "b"), (("S", 0, 0), "b")]) (by decide +kernel), by decide, by decide⟩

/-- The same positions, though. -/
example : ∃ cs', coverages 3 (optS [suiteOf true [98], suiteOf true [97, 98]]) = .ok cs' := by
  obtain ⟨cs, h, _⟩ := ok_of_summary (o := coverages 3 (optS [suiteOf true [97, 98], suiteOf true [98]])) (s := [("S", [true, true])])
    (by decide +kernel)
  obtain ⟨cs', h1, _⟩ := (C150_reports_partial _ _ (optS_reordered _ [suiteOf true [98], suiteOf true [97, 98]]
    (List.Perm.swap _ _ _)) 3).1 cs h
  exact ⟨cs', h1⟩

example (r : Positions) : uncovered 3 (optS [suiteOf true [97, 98], suiteOf true [98]]) = .ok r ↔
    uncovered 3 (optS [suiteOf true [98], suiteOf true [97, 98]]) = .ok r :=
  (C150_reports_partial _ _ (optS_reordered _ _ (List.Perm.swap _ _ _)) 3).2 r

/-- **C150 (where the order comes from).** `Suites` of the components and the token for any of some characters, made with two orders of the
same map, give the same suites in some order, or panic both; the two tokens are the same but for that. -/
theorem C150_components (name : String) (values order order' : List Char) (ho : order.Perm order')
    (l l' : List (List Char × Bool)) (hl : l.Perm l') :
    ((Comp.suites l = .panic ∧ Comp.suites l' = .panic) ∨
      (Comp.suites l = .ok none ∧ Comp.suites l' = .ok none) ∨
      ∃ ss ss', Comp.suites l = .ok (some ss) ∧ Comp.suites l' = .ok (some ss') ∧ ss.Perm ss') ∧
    ((Comp.anyCharacter name values order = .panic ∧ Comp.anyCharacter name values order' = .panic) ∨
      ∃ t t', Comp.anyCharacter name values order = .ok t ∧ Comp.anyCharacter name values order' = .ok t' ∧
        (Grammar.mk t []).Reordered (.mk t' [])) := by
  constructor
  · rw [Comp.suites_eq, Comp.suites_eq]
    by_cases h : ∃ e ∈ l, e.1 = []
    · have h' : ∃ e ∈ l', e.1 = [] := by
        obtain ⟨e, he, h1⟩ := h
        exact ⟨e, hl.mem_iff.mp he, h1⟩
      exact .inl ⟨if_pos h, if_pos h'⟩
    · have h' : ¬ ∃ e ∈ l', e.1 = [] := by
        rintro ⟨e, he, h1⟩
        exact h ⟨e, hl.mem_iff.mpr he, h1⟩
      rw [if_neg h, if_neg h']
      by_cases hn : l = []
      · subst hn
        have : l' = [] := hl.nil_eq.symm
        subst this
        exact .inr (.inl ⟨rfl, rfl⟩)
      · have hn' : l' ≠ [] := by
          rintro rfl
          exact hn hl.eq_nil
        rw [if_neg hn, if_neg hn']
        exact .inr (.inr ⟨_, _, rfl, rfl, hl.map _⟩)
  · rw [Comp.anyCharacter_eq, Comp.anyCharacter_eq]
    by_cases h : name = "" ∨ values = []
    · exact .inl ⟨if_pos h, if_pos h⟩
    · rw [if_neg h, if_neg h]
      refine .inr ⟨_, _, rfl, rfl, ?_⟩
      have hr : ∀ ls : List GLine, (∀ g ∈ ls, g.Like List.Perm g) → linesLike List.Perm ls ls := by
        intro ls
        induction ls with
        | nil => intro _; simp [linesLike]
        | cons g gs ih => intro hg; rw [linesLike]; exact ⟨hg g (by simp), ih (fun x hx => hg x (by simp [hx]))⟩
      simp only [Grammar.Reordered, Grammar.Like, Token.Like, channelsLike, true_and, and_true]
      refine ⟨hr _ ?_, ho.map _⟩
      intro g hg
      obtain ⟨c, _, rfl⟩ := List.mem_map.mp hg
      simp [GLine.Like, containersLike, Comp.containerOf, Container.Like, Comp.characterOf, Content.Like]

example : ∃ t t', Comp.anyCharacter "x" ['a', 'b'] ['a', 'b'] = .ok t ∧ Comp.anyCharacter "x" ['a', 'b'] ['b', 'a'] = .ok t' ∧
    (Grammar.mk t []).Reordered (.mk t' []) := by
  rcases (C150_components "x" ['a', 'b'] ['a', 'b'] ['b', 'a'] (List.Perm.swap _ _ _) [] [] (.refl _)).2 with ⟨h, _⟩ | h
  · rw [Comp.anyCharacter_eq, if_neg (by simp)] at h
    cases h
  · exact h

end Rodkina.Props
