import Verif.AstCostAny
import Verif.AstCostProps

/-!
# Steps against depth (C154)
-/

namespace Rodkina.Props

open Rodkina.Ast Rodkina.Ast.Cost

/-- **C154.** The number of steps of `Execute` on a grammar and an input is one number or, when it recurses without end, none; it is at most
`(c * (length + 1) ^ 3) ^ D` where `c` comes from the grammar alone and `D` is any depth that the nesting of calls does not exceed. -/
theorem C154_steps_depth (g : Grammar) :
    (∀ input, (∃ k, Takes g input k) ↔ ¬ Diverges g input) ∧
    (∀ input k k', Takes g input k → Takes g input k' → k = k') ∧
    ∃ c, ∀ input D, NestsWithin g input D → ∀ k, Takes g input k → k ≤ (c * (input.length + 1) ^ 3) ^ D := by
  refine ⟨fun input => ?_, ?_, 37 * (max 1 (grammarW g)) ^ 4, ?_⟩
  · constructor
    · rintro ⟨k, n, hn, _⟩ h
      exact hn (h n)
    · intro h
      by_contra hk
      refine h fun n => ?_
      by_contra hn
      exact hk ⟨_, n, hn, rfl⟩
  · rintro input k k' ⟨n, hn, rfl⟩ ⟨m, hm, rfl⟩
    exact steps_unique hn hm
  · rintro input D hD k ⟨n, hn, rfl⟩
    rw [steps_unique hn (hD D (Nat.le_refl _))]
    exact steps_le_depth g input D

/-- **C154.** When every reference by name comes after something that must occur, the exponent is linear in the length of the input. -/
theorem C154_steps_guarded (g : Grammar) (hg : g.All lineGuarded) :
    ∃ c d, ∀ input, (∃ k, Takes g input k) ∧ ∀ k, Takes g input k → k ≤ (c * (input.length + 1) ^ 3) ^ ((input.length + 1) * d) := by
  obtain ⟨h1, _, c, h3⟩ := C154_steps_depth g
  refine ⟨c, grammarX 0 g, fun input => ?_⟩
  have hn := (C151_nesting_partial g).1 hg input
  exact ⟨⟨_, _, hn _ (Nat.le_refl _), rfl⟩, h3 input _ hn⟩

example : ∃ c d, ∀ input, (∃ k, Takes (brackets 40 120 41) input k) ∧
    ∀ k, Takes (brackets 40 120 41) input k → k ≤ (c * (input.length + 1) ^ 3) ^ ((input.length + 1) * d) :=
  C154_steps_guarded _ (brackets_guarded 40 120 41)

example (input : Bytes) (k k' : Nat) (h : Takes letters input k) (h' : Takes letters input k') : k = k' :=
  (C154_steps_depth letters).2.1 input k k' h h'

/-- The grammar of one word. -/
def spell (w : Bytes) : Grammar := .mk (.mk "word" [.mk (w.map one)] []) []

theorem spell_line {rec : Cost.Rec} (w : Bytes) : ∀ (p0 : Bytes) (es : List TElement) (p r : Bytes) (s : Stk),
    ∃ p', lineLoop rec c0 p0 (w.map one) ⟨es, p, w ++ r⟩ s = (.ok ⟨es ++ w.map hit, p', r⟩, s, 3 * w.length) := by
  induction w with
  | nil => exact fun p0 es p r s => ⟨p, by rw [List.map_nil, List.map_nil, List.append_nil]; rfl⟩
  | cons v w ih =>
    intro p0 es p r s
    obtain ⟨p', h⟩ := ih p0 (es ++ [hit v]) (v :: (w ++ r)) r s
    refine ⟨p', ?_⟩
    rw [List.map_cons, List.cons_append, lineLoop_one_hit, h]
    simp only [List.append_assoc, List.cons_append, List.nil_append, List.map_cons, List.length_cons, Prod.mk.injEq, true_and]
    omega

/-- **C154.** On a grammar of one word the number is exact: reading the word takes one call, one line, and for every byte a container and
two turns. -/
theorem C154_steps_word (w r : Bytes) (hw : w ≠ []) (k : Nat) : Takes (spell w) (w ++ r) k ↔ k = 3 * w.length + 2 := by
  obtain ⟨v, w', rfl⟩ := List.exists_cons_of_ne_nil hw
  generalize hwd : v :: w' = w at *
  obtain ⟨p', hl⟩ := spell_line (rec := Cost.token 0) w [] [] [] r [((spell w).root.name, ⟨(spell w).root, [(0, w ++ r)]⟩)]
  have hsucc : (TLine.mk 0 (.mk (w.map one)) false (w.map hit)).isSuccessful = true := by
    subst hwd
    simp only [TLine.isSuccessful, List.map_cons, List.isEmpty_cons, Bool.not_false, Bool.true_and, Bool.false_or, Bool.and_eq_true,
      List.all_eq_true, GLine.containers]
    constructor
    · intro e he
      obtain ⟨u, rfl⟩ : ∃ u, e = hit u := by
        rcases List.mem_cons.mp he with rfl | he
        · exact ⟨_, rfl⟩
        · obtain ⟨u, _, rfl⟩ := List.mem_map.mp he
          exact ⟨u, rfl⟩
      rfl
    · intro c hc
      obtain ⟨u, rfl⟩ : ∃ u, c = one u := by
        rcases List.mem_cons.mp hc with rfl | hc
        · exact ⟨_, rfl⟩
        · obtain ⟨u, _, rfl⟩ := List.mem_map.mp hc
          exact ⟨u, rfl⟩
      show (decide (1 = 0) || (fetchElement (hit v :: w'.map hit) "byte").any fun e => decide (1 ≤ e.amount)) = true
      rw [Bool.or_eq_true]
      right
      have hsome : (fetchElement (hit v :: w'.map hit) "byte").isSome := by
        unfold fetchElement
        rw [List.find?_isSome]
        exact ⟨hit v, by simp, rfl⟩
      obtain ⟨e, he⟩ := Option.isSome_iff_exists.mp hsome
      have hmem : e ∈ hit v :: w'.map hit := by
        unfold fetchElement at he
        exact List.mem_reverse.mp (List.mem_of_find?_eq_some he)
      rw [he]
      rcases List.mem_cons.mp hmem with rfl | hmem
      · rfl
      · obtain ⟨u, _, rfl⟩ := List.mem_map.mp hmem
        rfl
  have b := block_ok (rec := Cost.token 0) (tok := (spell w).root) (p := []) (d := w ++ r) (idx := 0) (g := .mk (w.map one))
    (s := [((spell w).root.name, ⟨(spell w).root, []⟩)]) (s' := [((spell w).root.name, ⟨(spell w).root, [(0, w ++ r)]⟩)])
    (k := 3 * w.length) [] [] (es := w.map hit) (p' := p') (d' := r) (tried_one _ (by simp))
    (by rw [record_one]; exact hl) hsucc
  have h := tokenBody_run (spell w).root [] (w ++ r) [] b (by simp)
  have hne : execute 1 (spell w) (w ++ r) ≠ .oof := by
    rw [← erase_execute]
    show (Cost.tokenBody (Cost.token 0) _ _ _ _ _).1 ≠ _
    rw [show (⟨none, (spell w).channels, false⟩ : Ctx) = c0 from rfl, h]
    exact nofun
  have hst : steps 1 (spell w) (w ++ r) = 3 * w.length + 2 := by
    show (Cost.tokenBody (Cost.token 0) _ _ _ _ _).2.2 = _
    rw [show (⟨none, (spell w).channels, false⟩ : Ctx) = c0 from rfl, h]
    show 1 + (1 + 3 * w.length) = _
    omega
  constructor
  · rintro ⟨n, hn, rfl⟩
    rw [steps_unique hn hne, hst]
  · rintro rfl
    exact ⟨1, hne, hst⟩

example : Takes (spell [104, 105]) [104, 105, 33] 8 := (C154_steps_word [104, 105] [33] (by simp) 8).mpr rfl

end Rodkina.Props
