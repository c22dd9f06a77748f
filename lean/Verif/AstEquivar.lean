import Verif.AstRename2
import Verif.AstMono

/-!
# Renaming without making names equal

The parser compares names for equality and nothing else.  When the names of a grammar are replaced by
an injective function, every step of the parser on the new grammar mirrors the step on the old one, at
every nesting depth, whatever the grammar.
-/

namespace Rodkina.Ast

open M

/-- The map with every name replaced (libs/asts/applications/stack.go:5-8). -/
def Stk.ren (f : String → String) (s : Stk) : Stk := s.map (fun p => (f p.1, ⟨p.2.token.rename f, p.2.lines⟩))

/-- The parameters with the names of the escape token and of the channels replaced
(libs/asts/applications/application.go:512). -/
def Ctx.ren (f k : String → String) (c : Ctx) : Ctx := ⟨c.escape.map (Token.rename f), c.channels.map (Channel.rename k), c.reverse⟩

/-- Outcomes of the same kind, with related values. -/
def OutSim {α β : Type} (R : α → β → Prop) : Out α → Out β → Prop
  | .ok a, .ok b => R a b
  | .err, .err => True
  | .panic, .panic => True
  | .oof, .oof => True
  | _, _ => False

/-- Related computations: on maps that differ by the renaming, related outcomes and maps that differ by
the renaming. -/
def MSim (f : String → String) {α β : Type} (R : α → β → Prop) (m : M α) (m' : M β) : Prop :=
  ∀ s, OutSim R (m s).1 (m' (s.ren f)).1 ∧ (m' (s.ren f)).2 = (m s).2.ren f

/-- Trees that look alike: bytes, rest, success, chosen alternative. -/
def TreeSim (t t' : Tree) : Prop :=
  (∀ ch, t.bytes ch = t'.bytes ch) ∧ t.remaining = t'.remaining ∧ t.isSuccessful = t'.isSuccessful ∧
    t.block.successful.map TLine.index = t'.block.successful.map TLine.index

/-- Lists of trees that look alike. -/
def TreesSim (l l' : List Tree) : Prop := (∀ ch, treesBytes ch l = treesBytes ch l') ∧ l.length = l'.length

/-- Contents that look alike. -/
def ContSim (c c' : TContent) : Prop := (∀ ch, c.bytes ch = c'.bytes ch) ∧ c.isSuccessful = c'.isSuccessful

/-- Lists of contents that look alike. -/
def ContsSim (l l' : List TContent) : Prop := (∀ ch, contentsBytes ch l = contentsBytes ch l') ∧ l.length = l'.length

/-- Lists of elements that differ by the renaming. -/
def ElemsSim (f : String → String) (l l' : List TElement) : Prop :=
  (∀ ch, elementsBytes ch l = elementsBytes ch l') ∧
    l'.map (fun e => (e.grammar, e.amount)) = l.map (fun e => (e.grammar.map (Container.rename f), e.amount))

/-- What is seen of a line. -/
def lineSeen (l : TLine) : Bool × Nat × Bytes × Bytes := (l.isSuccessful, l.index, l.bytes true, l.bytes false)

section
variable {f : String → String} {α β γ δ : Type}

theorem MSim.pure {R : α → β → Prop} {a : α} {b : β} (h : R a b) : MSim f R (Pure.pure a) (Pure.pure b) :=
  fun _ => ⟨h, rfl⟩

theorem MSim.fail {R : α → β → Prop} : MSim f R (M.fail : M α) (M.fail : M β) := fun _ => ⟨trivial, rfl⟩

theorem MSim.crash {R : α → β → Prop} : MSim f R (M.crash : M α) (M.crash : M β) := fun _ => ⟨trivial, rfl⟩

theorem MSim.oof {R : α → β → Prop} : MSim f R (M.oof : M α) (M.oof : M β) := fun _ => ⟨trivial, rfl⟩

theorem MSim.bind {R : α → β → Prop} {S : γ → δ → Prop} {m : M α} {m' : M β} {k : α → M γ} {k' : β → M δ}
    (h : MSim f R m m') (hk : ∀ a b, R a b → MSim f S (k a) (k' b)) : MSim f S (m >>= k) (m' >>= k') := by
  intro s
  obtain ⟨h1, h2⟩ := h s
  rw [bind_apply, bind_apply]
  rcases hm : m s with ⟨o, s1⟩
  rcases hm' : m' (s.ren f) with ⟨o', s2⟩
  rw [hm, hm'] at h1 h2
  simp only at h1 h2
  subst h2
  cases o <;> cases o' <;> simp only [OutSim] at h1 ⊢
  · exact hk _ _ h1 s1
  all_goals exact ⟨trivial, trivial⟩

theorem MSim.attempt {R : α → β → Prop} {m : M α} {m' : M β} (h : MSim f R m m') :
    MSim f (Option.Rel R) (M.attempt m) (M.attempt m') := by
  intro s
  obtain ⟨h1, h2⟩ := h s
  unfold M.attempt
  rcases hm : m s with ⟨o, s1⟩
  rcases hm' : m' (s.ren f) with ⟨o', s2⟩
  rw [hm, hm'] at h1 h2
  simp only at h1 h2
  subst h2
  cases o <;> cases o' <;> simp only [OutSim] at h1 ⊢
  · exact ⟨.some h1, trivial⟩
  · exact ⟨.none, trivial⟩
  all_goals exact ⟨trivial, trivial⟩

theorem MSim.fresh {k : String → String} {R : α → β → Prop} {m : M α} {m' : M β} (h : MSim k R m m') :
    MSim f R (M.fresh m) (M.fresh m') := fun _ => ⟨(h []).1, rfl⟩

theorem MSim.ite {R : α → β → Prop} {p q : Prop} [Decidable p] [Decidable q] {a b : M α} {a' b' : M β} (hpq : p ↔ q)
    (h1 : MSim f R a a') (h2 : MSim f R b b') : MSim f R (if p then a else b) (if q then a' else b') := by
  by_cases h : p
  · rw [if_pos h, if_pos (hpq.mp h)]; exact h1
  · rw [if_neg h, if_neg (fun hq => h (hpq.mpr hq))]; exact h2

/-! ### The map -/

theorem ren_get (hf : Function.Injective f) (s : Stk) (k : String) :
    (s.ren f).get (f k) = (s.get k).map (fun e => ⟨e.token.rename f, e.lines⟩) := by
  unfold Stk.get Stk.ren
  induction s with
  | nil => rfl
  | cons p s ih =>
    rw [List.map_cons, List.lookup_cons, List.lookup_cons, ih]
    have : (f k == f p.1) = (k == p.1) := by
      rw [Bool.eq_iff_iff]
      simp [hf.eq_iff]
    rw [this]
    cases k == p.1 <;> rfl

theorem ren_del (hf : Function.Injective f) (s : Stk) (k : String) : (s.ren f).del (f k) = (s.del k).ren f := by
  unfold Stk.del Stk.ren
  rw [List.filter_map]
  congr 1
  apply List.filter_congr
  intro p _
  simp only [Function.comp]
  rw [Bool.eq_iff_iff]
  simp [hf.eq_iff]

theorem ren_put (hf : Function.Injective f) (s : Stk) (k : String) (e : Entry) :
    (s.ren f).put (f k) ⟨e.token.rename f, e.lines⟩ = (s.put k e).ren f := by
  unfold Stk.put
  rw [ren_del hf]
  rfl

theorem rename_name (t : Token) : (t.rename f).name = f t.name := by
  rcases t with ⟨n, ls, ss⟩
  simp [Token.rename, Token.name]

theorem rename_lines (t : Token) : (t.rename f).lines = t.lines.map (GLine.rename f) := by
  rcases t with ⟨n, ls, ss⟩
  simp only [Token.rename, Token.lines]
  induction ls with
  | nil => rfl
  | cons g gs ih => rw [linesRename, ih]; rfl

theorem rename_containers (g : GLine) : (g.rename f).containers = g.containers.map (Container.rename f) := by
  rcases g with ⟨cs⟩
  simp only [GLine.rename, GLine.containers]
  induction cs with
  | nil => rfl
  | cons c cs ih => rw [containersRename, ih]; rfl

theorem rename_container_name (c : Container) : (c.rename f).name = f c.name := by
  cases c with
  | compose c => rfl
  | element m x c =>
    cases c with
    | token t => simp only [Container.rename, Content.rename, Container.name, Content.name, rename_name]
    | everything n ex esc => cases esc <;> rfl
    | _ => rfl

theorem MSim.thenDelete (hf : Function.Injective f) {R : α → β → Prop} {m : M α} {m' : M β} (k : String) (h : MSim f R m m') :
    MSim f R (M.thenDelete k m) (M.thenDelete (f k) m') := by
  intro s
  obtain ⟨h1, h2⟩ := h s
  refine ⟨h1, ?_⟩
  simp only [M.thenDelete, h2, ren_del hf]

theorem eqv_enter (hf : Function.Injective f) (t : Token) : MSim f Eq (enter t) (enter (t.rename f)) := by
  intro s
  unfold enter
  rw [rename_name, ren_get hf]
  cases s.get t.name with
  | some e => exact ⟨rfl, rfl⟩
  | none => exact ⟨rfl, ren_put hf s t.name ⟨t, []⟩⟩

theorem eqv_tried (hf : Function.Injective f) (t : Token) (idx : Nat) (cur : Bytes) :
    MSim f Eq (alreadyTried t idx cur) (alreadyTried (t.rename f) idx cur) := by
  intro s
  unfold alreadyTried
  rw [rename_name, ren_get hf]
  refine ⟨?_, rfl⟩
  cases s.get t.name <;> rfl

theorem eqv_record (hf : Function.Injective f) (t : Token) (idx : Nat) (cur : Bytes) :
    MSim f Eq (recordLine t idx cur) (recordLine (t.rename f) idx cur) := by
  intro s
  unfold recordLine
  rw [rename_name, ren_get hf]
  refine ⟨rfl, ?_⟩
  cases h : s.get t.name with
  | some e => exact ren_put hf s t.name ⟨e.token, (idx, cur) :: e.lines⟩
  | none => exact ren_put hf s t.name ⟨t, [(idx, cur)]⟩

theorem eqv_recursive (hf : Function.Injective f) (n : String) :
    MSim f (fun t t' => t' = t.rename f) (recursiveToken n) (recursiveToken (f n)) := by
  intro s
  unfold recursiveToken
  rw [ren_get hf]
  cases s.get n with
  | some e => exact ⟨rfl, rfl⟩
  | none => exact ⟨trivial, rfl⟩

end

/-! ### Success of a line -/

section
variable {f : String → String}

theorem eqv_elements_all {es es' : List TElement} (h : ElemsSim f es es') :
    es.all TElement.isSuccessful = es'.all TElement.isSuccessful := by
  let ok : Option Container × Nat → Bool := fun p => match p.1 with
    | none => true
    | some (.element min max _) => decide (min ≤ p.2) && withinMax max p.2
    | some (.compose c) => decide (c.amount ≤ p.2)
  have hok : ∀ e : TElement, e.isSuccessful = ok (e.grammar, e.amount) := by
    rintro ⟨g, cs⟩
    cases g with
    | none => rfl
    | some c => cases c <;> rfl
  have hren : ∀ e : TElement, ok (e.grammar.map (Container.rename f), e.amount) = ok (e.grammar, e.amount) := by
    rintro ⟨g, cs⟩
    cases g with
    | none => rfl
    | some c => cases c <;> rfl
  have h1 : es.all TElement.isSuccessful = (es.map (fun e => (e.grammar.map (Container.rename f), e.amount))).all ok := by
    rw [List.all_map]
    congr 1
    funext e
    rw [Function.comp, hren, hok]
  have h2 : es'.all TElement.isSuccessful = (es'.map (fun e => (e.grammar, e.amount))).all ok := by
    rw [List.all_map]
    congr 1
    funext e
    exact hok e
  rw [h1, h2, h.2]

theorem eqv_fetch (hf : Function.Injective f) {es es' : List TElement} (h : ElemsSim f es es') (name : String) :
    (fetchElement es' (f name)).map TElement.amount = (fetchElement es name).map TElement.amount := by
  have key : ∀ (l l' : List TElement), l'.map (fun e => (e.grammar, e.amount)) = l.map (fun e => (e.grammar.map (Container.rename f), e.amount)) →
      (l'.find? (fun e => e.key == some (f name))).map TElement.amount = (l.find? (fun e => e.key == some name)).map TElement.amount := by
    intro l
    induction l with
    | nil =>
      intro l' h
      simp only [List.map_nil, List.map_eq_nil_iff] at h
      subst h
      rfl
    | cons e l ih =>
      intro l' h
      cases l' with
      | nil => simp at h
      | cons e' l' =>
        simp only [List.map_cons, List.cons.injEq, Prod.mk.injEq] at h
        obtain ⟨⟨h1, h2⟩, h3⟩ := h
        rw [List.find?_cons, List.find?_cons]
        have hk : (e'.key == some (f name)) = (e.key == some name) := by
          unfold TElement.key
          rw [h1]
          cases e.grammar with
          | none => rfl
          | some c =>
            rw [Bool.eq_iff_iff]
            simp [rename_container_name, hf.eq_iff]
        rw [hk]
        cases e.key == some name with
        | true => simp [h2]
        | false => exact ih l' h3
  have hr := key es.reverse es'.reverse (by rw [List.map_reverse, List.map_reverse, h.2])
  exact hr

theorem any_amount (o : Option TElement) (p : Nat → Bool) : o.any (fun e => p e.amount) = (o.map TElement.amount).any p := by
  cases o <;> rfl

theorem eqv_satisfied (hf : Function.Injective f) {es es' : List TElement} (h : ElemsSim f es es') (c : Container) :
    containerSatisfied es' (c.rename f) = containerSatisfied es c := by
  cases c with
  | compose c =>
    simp only [Container.rename, containerSatisfied]
    rw [any_amount _ (fun n => decide (n = (Compose.amount ⟨f c.name, c.list⟩))), eqv_fetch hf h, ← any_amount]
    rfl
  | element min max ct =>
    have hn : (ct.rename f).name = f ct.name := rename_container_name (f := f) (.element min max ct)
    simp only [Container.rename, containerSatisfied, hn]
    rw [any_amount _ (fun n => decide (min ≤ n)), eqv_fetch hf h, ← any_amount]

theorem elems_length {es es' : List TElement} (h : ElemsSim f es es') : es'.length = es.length := by
  have := congrArg List.length h.2
  simpa using this

theorem eqv_line (hf : Function.Injective f) {es es' : List TElement} (h : ElemsSim f es es') (idx : Nat) (g : GLine) (rev : Bool) :
    lineSeen (.mk idx g rev es) = lineSeen (.mk idx (g.rename f) rev es') := by
  have h1 : (TLine.mk idx g rev es).isSuccessful = (TLine.mk idx (g.rename f) rev es').isSuccessful := by
    unfold TLine.isSuccessful
    have he : es.isEmpty = es'.isEmpty := by
      have := elems_length h
      cases es <;> cases es' <;> simp_all
    have hc : (g.rename f).containers.all (containerSatisfied es') = g.containers.all (containerSatisfied es) := by
      rw [rename_containers, List.all_map]
      congr 1
      funext c
      exact eqv_satisfied hf h c
    simp only [he, eqv_elements_all h, hc]
  unfold lineSeen
  rw [h1]
  simp only [TLine.index, TLine.bytes, h.1]

theorem seen_success {l l' : TLine} (h : lineSeen l = lineSeen l') : l.isSuccessful = l'.isSuccessful := congrArg (·.1) h

/-- A block made of lines that look alike. -/
theorem eqv_block {ls ls' : List TLine} (h : ls.map lineSeen = ls'.map lineSeen) {t t' : Token} {s s' : List Tree}
    (hs : TreesSim s s') (r : Bytes) : TreeSim (.mk t (mkBlock ls) s r) (.mk t' (mkBlock ls') s' r) := by
  have key : ∀ ls ls' : List TLine, ls.map lineSeen = ls'.map lineSeen →
      (ls.find? TLine.isSuccessful).map lineSeen = (ls'.find? TLine.isSuccessful).map lineSeen := by
    intro ls
    induction ls with
    | nil =>
      intro ls' h
      simp only [List.map_nil, eq_comm, List.map_eq_nil_iff] at h
      subst h
      rfl
    | cons l ls ih =>
      intro ls' h
      cases ls' with
      | nil => simp at h
      | cons l' ls' =>
        simp only [List.map_cons, List.cons.injEq] at h
        rw [List.find?_cons, List.find?_cons, seen_success h.1]
        cases l'.isSuccessful with
        | true => simp [h.1]
        | false => exact ih ls' h.2
  have hk := key ls ls' h
  unfold TreeSim
  simp only [Tree.bytes, Tree.remaining, Tree.isSuccessful, Tree.block, mkBlock, Block.successful]
  cases h1 : ls.find? TLine.isSuccessful with
  | none =>
    cases h2 : ls'.find? TLine.isSuccessful with
    | none => simp [Block.bytesWith]
    | some l' => rw [h1, h2] at hk; simp at hk
  | some l =>
    cases h2 : ls'.find? TLine.isSuccessful with
    | none => rw [h1, h2] at hk; simp at hk
    | some l' =>
      rw [h1, h2] at hk
      simp only [Option.map_some, Option.some.injEq, lineSeen, Prod.mk.injEq] at hk
      refine ⟨fun ch => ?_, trivial, rfl, by simp [hk.2.1]⟩
      simp only [Block.bytesWith, hs.1]
      cases ch
      · rw [hk.2.2.2]
      · rw [hk.2.2.1]

end

end Rodkina.Ast
