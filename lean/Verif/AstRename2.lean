import Verif.AstRename
import Verif.AstRec3

/-!
# Renaming and the reference interpreters of AstRefSpec.lean and AstRecSpec.lean
-/

namespace Rodkina.Ast

open Shipped (view)

theorem Ans.map_eq {α β γ : Type} {f : α → γ} {g : β → γ} {a : Ans α} {b : Ans β} (h : a.map f = b.map g) :
    (∃ x y, a = .found x ∧ b = .found y ∧ f x = g y) ∨ (a = .blank ∧ b = .blank) ∨
      (a = .refused ∧ b = .refused) ∨ (a = .crash ∧ b = .crash) := by
  cases a <;> cases b <;> simp_all [Ans.map]

/-- Two matchers see the same bytes and leave the same rest. -/
def SameM (f g : Matcher Shape) : Prop := ∀ p d, (f p d).map view = (g p d).map view

/-- The same for elements; moreover both find some elements or none. -/
def SameE (f g : Matcher (List ShapeElem)) : Prop :=
  ∀ p d, (f p d).map viewElems = (g p d).map viewElems

/-- Bytes of the contents and rests. -/
def viewMany (x : List Shape × Bytes × Bytes) : List Bytes × Bytes × Bytes := (x.1.map Shape.bytes, x.2)

theorem SameM.refl (f : Matcher Shape) : SameM f f := fun _ _ => rfl

theorem manyOf_same {f g : Matcher Shape} (h : SameM f g) (max : Option Nat) (k n : Nat) (p d : Bytes) :
    (manyOf f max k n p d).map viewMany = (manyOf g max k n p d).map viewMany := by
  induction k generalizing n p d with
  | zero => rfl
  | succ k ih =>
    rw [manyOf, manyOf]
    split
    · rfl
    · rcases Ans.map_eq (h p d) with ⟨x, y, hx, hy, e⟩ | ⟨hx, hy⟩ | ⟨hx, hy⟩ | ⟨hx, hy⟩
      · simp only [view, Prod.mk.injEq] at e
        rw [hx, hy]
        simp only
        rw [e.2]
        rcases Ans.map_eq (ih (n + 1) d y.2) with ⟨x', y', hx', hy', e'⟩ | ⟨hx', hy'⟩ | ⟨hx', hy'⟩ | ⟨hx', hy'⟩ <;>
          rw [hx', hy']
        · simp only [viewMany, Prod.mk.injEq] at e'
          simp [Ans.map, viewMany, e.1, e'.1, e'.2]
        · rfl
        · rfl
        · rfl
      all_goals rw [hx, hy]

theorem timesOf_same {f g : Matcher Shape} (h : SameM f g) (min : Nat) (max : Option Nat) (p d : Bytes) :
    (timesOf f min max p d).map viewMany = (timesOf g min max p d).map viewMany := by
  unfold timesOf
  rcases Ans.map_eq (manyOf_same h max d.length 0 p d) with ⟨x, y, hx, hy, e⟩ | ⟨hx, hy⟩ | ⟨hx, hy⟩ | ⟨hx, hy⟩ <;>
    rw [hx, hy]
  · have hl : x.1.length = y.1.length := by
      have := congrArg (fun z => z.1.length) e
      simpa [viewMany] using this
    simp only [Ans.bind, hl]
    split
    · rfl
    · simp [Ans.map, e]

/-- The same escapes. -/
def SameEsc : Option (Matcher Shape) → Option (Matcher Shape) → Prop
  | none, none => True
  | some f, some g => SameM f g
  | _, _ => False

theorem escaped_same {e e' : Option (Matcher Shape)} {f f' : Matcher (List ShapeElem)} (he : SameEsc e e')
    (hf : SameE f f') (p d : Bytes) : escaped e f p d = escaped e' f' p d := by
  cases e with
  | none =>
    cases e' with
    | none => rfl
    | some g' => exact absurd he (by simp [SameEsc])
  | some g =>
    cases e' with
    | none => exact absurd he (by simp [SameEsc])
    | some g' =>
      simp only [SameEsc] at he
      unfold escaped
      simp only
      rcases Ans.map_eq (he p d) with ⟨x, y, hx, hy, e⟩ | ⟨hx, hy⟩ | ⟨hx, hy⟩ | ⟨hx, hy⟩ <;> rw [hx, hy]
      simp only [view, Prod.mk.injEq] at e
      simp only [e.2]
      split
      · rfl
      · rcases Ans.map_eq (hf d y.2) with ⟨x', y', hx', hy', e'⟩ | ⟨hx', hy'⟩ | ⟨hx', hy'⟩ | ⟨hx', hy'⟩ <;>
          rw [hx', hy']
        simp only [viewElems, Prod.mk.injEq] at e'
        simp only [e'.2.2]

theorem upTo_same {e e' : Option (Matcher Shape)} {f f' : Matcher (List ShapeElem)} (he : SameEsc e e')
    (hf : SameE f f') (k : Nat) (p d : Bytes) : upTo e f k p d = upTo e' f' k p d := by
  induction k generalizing p d with
  | zero => rfl
  | succ k ih =>
    rw [upTo, upTo, escaped_same he hf]
    split
    · rfl
    · congr 1
      funext x
      simp only [ih]
      rcases Ans.map_eq (hf x.2.1 x.2.2) with ⟨x', y', hx', hy', e'⟩ | ⟨hx', hy'⟩ | ⟨hx', hy'⟩ | ⟨hx', hy'⟩ <;>
        rw [hx', hy']

/-- The same alternatives. -/
inductive SameEs : List (Matcher (List ShapeElem)) → List (Matcher (List ShapeElem)) → Prop
  | nil : SameEs [] []
  | cons {f g fs gs} (h : SameE f g) (hs : SameEs fs gs) : SameEs (f :: fs) (g :: gs)

/-- The alternative, its elements and the rest. -/
def viewFirst (x : (Nat × List ShapeElem) × Bytes) : Nat × Bytes × Bool × Bytes := (x.1.1, viewElems (x.1.2, x.2))

theorem firstOf_same {fs gs : List (Matcher (List ShapeElem))} (h : SameEs fs gs) (i : Nat) (p d : Bytes) :
    (firstOf fs i p d).map viewFirst = (firstOf gs i p d).map viewFirst := by
  induction h generalizing i with
  | nil => rfl
  | @cons f g fs gs h hs ih =>
    rw [firstOf, firstOf]
    rcases Ans.map_eq (h p d) with ⟨x, y, hx, hy, e⟩ | ⟨hx, hy⟩ | ⟨hx, hy⟩ | ⟨hx, hy⟩ <;> rw [hx, hy]
    · simp [Ans.map, viewFirst, e]
    · simp only
      rcases Ans.map_eq (ih (i + 1)) with ⟨x', y', hx', hy', e'⟩ | ⟨hx', hy'⟩ | ⟨hx', hy'⟩ | ⟨hx', hy'⟩ <;> rw [hx', hy']
      simp [Ans.map, e']
    · exact ih (i + 1)

/-- The same modes. -/
structure SameMode (m m' : Mode) : Prop where
  escape : SameEsc m.escape m'.escape
  skip : m.skip = m'.skip
  reverse : m.reverse = m'.reverse

theorem SameMode.refl (m : Mode) : SameMode m m := by
  refine ⟨?_, rfl, rfl⟩
  cases m.escape with
  | none => trivial
  | some f => exact SameM.refl f

theorem tokenOf_same {m m' : Mode} (hm : SameMode m m') (n n' : String)
    {fs gs : List (Matcher (List ShapeElem))} (h : SameEs fs gs) : SameM (tokenOf m n fs) (tokenOf m' n' gs) := by
  intro p d
  unfold tokenOf
  rw [hm.reverse, hm.skip]
  split
  · cases h with
    | nil => rfl
    | @cons f g fs gs h hs =>
      simp only [upTo_same hm.escape h]
      cases upTo m'.escape g (d.length + 1) p d with
      | found x =>
        simp only [Ans.bind]
        split
        · rfl
        · simp [Ans.map, view, Shape.bytes, shapeElemsBytes, ShapeElem.bytes]
      | blank => rfl
      | refused => rfl
      | crash => rfl
  · rcases Ans.map_eq (firstOf_same h 0 p d) with ⟨x, y, hx, hy, e⟩ | ⟨hx, hy⟩ | ⟨hx, hy⟩ | ⟨hx, hy⟩ <;> rw [hx, hy]
    · simp only [viewFirst, viewElems, Prod.mk.injEq] at e
      simp [Ans.map, view, Shape.bytes, e.2.1, e.2.2.2]
    · rfl
    · rfl
    · rfl

theorem SameM.strict {f g : Matcher Shape} (h : SameM f g) :
    SameM (fun p d => (f p d).strict) (fun p d => (g p d).strict) := by
  intro p d
  simp only
  rcases Ans.map_eq (h p d) with ⟨x, y, hx, hy, e⟩ | ⟨hx, hy⟩ | ⟨hx, hy⟩ | ⟨hx, hy⟩ <;> rw [hx, hy]
  · simpa [Ans.strict, Ans.map] using e

theorem line_same {f g : Matcher (List ShapeElem)} (h : SameE f g) :
    SameE (fun p d => (f p d).bind (fun x => if x.1.isEmpty then .blank else .found x))
      (fun p d => (g p d).bind (fun x => if x.1.isEmpty then .blank else .found x)) := by
  intro p d
  simp only
  rcases Ans.map_eq (h p d) with ⟨x, y, hx, hy, e⟩ | ⟨hx, hy⟩ | ⟨hx, hy⟩ | ⟨hx, hy⟩ <;> rw [hx, hy]
  · have he : x.1.isEmpty = y.1.isEmpty := by
      have := congrArg (fun z => z.2.1) e
      simpa [viewElems] using this
    simp only [Ans.bind, he]
    split
    · rfl
    · simp [Ans.map, e]

theorem seq_same {c c' : Bytes → Bytes → Ans (List Shape × Bytes × Bytes)} {f g : Matcher (List ShapeElem)}
    (n n' : String) (hc : ∀ p d, (c p d).map viewMany = (c' p d).map viewMany) (h : SameE f g) :
    SameE (fun p d => (c p d).bind (fun x => (f x.2.1 x.2.2).map (fun y => (consElem n x.1 y.1, y.2))))
      (fun p d => (c' p d).bind (fun x => (g x.2.1 x.2.2).map (fun y => (consElem n' x.1 y.1, y.2)))) := by
  intro p d
  simp only
  rcases Ans.map_eq (hc p d) with ⟨x, y, hx, hy, e⟩ | ⟨hx, hy⟩ | ⟨hx, hy⟩ | ⟨hx, hy⟩ <;> rw [hx, hy]
  · simp only [viewMany, Prod.mk.injEq] at e
    have hb : shapesBytes x.1 = shapesBytes y.1 := by
      rw [shapesBytes_eq, shapesBytes_eq, e.1]
    have hem : x.1.isEmpty = y.1.isEmpty := by
      have := congrArg List.isEmpty e.1
      simpa using this
    simp only [Ans.bind]
    rw [e.2]
    rcases Ans.map_eq (h y.2.1 y.2.2) with ⟨x', y', hx', hy', e'⟩ | ⟨hx', hy'⟩ | ⟨hx', hy'⟩ | ⟨hx', hy'⟩ <;> rw [hx', hy']
    · simp only [Ans.map, viewElems_cons, hb, hem, e']
    all_goals rfl
  all_goals rfl

theorem Shape.rename_bytes (n : String) (s : Shape) : (s.rename n).bytes = s.bytes := by
  cases s <;> simp [Shape.rename, Shape.bytes]

mutual
theorem refToken_rename (f : String → String) {m m' : Mode} (hm : SameMode m m') (t : Token) :
    SameM (refToken m (t.rename f)) (refToken m' t) := by
  rcases t with ⟨n, ls, ss⟩
  rw [Token.rename, refToken, refToken]
  exact tokenOf_same hm _ _ (refLines_rename f hm ls)
theorem refLines_rename (f : String → String) {m m' : Mode} (hm : SameMode m m') (ls : List GLine) :
    SameEs (refLines m (linesRename f ls)) (refLines m' ls) := by
  cases ls with
  | nil => rw [linesRename, refLines, refLines]; exact .nil
  | cons g gs =>
    rw [linesRename, refLines, refLines]
    exact .cons (refLine_rename f hm g) (refLines_rename f hm gs)
theorem refLine_rename (f : String → String) {m m' : Mode} (hm : SameMode m m') (g : GLine) :
    SameE (refLine m (g.rename f)) (refLine m' g) := by
  rcases g with ⟨cs⟩
  rw [GLine.rename, refLine, refLine]
  exact line_same (refSeq_rename f hm cs)
theorem refSeq_rename (f : String → String) {m m' : Mode} (hm : SameMode m m') (cs : List Container) :
    SameE (refSeq m (containersRename f cs)) (refSeq m' cs) := by
  cases cs with
  | nil => rw [containersRename, refSeq, refSeq]; exact fun _ _ => rfl
  | cons c cs =>
    rw [containersRename, refSeq, refSeq]
    exact seq_same _ _ (refContainer_rename f hm c) (refSeq_rename f hm cs)
theorem refContainer_rename (f : String → String) {m m' : Mode} (hm : SameMode m m') (c : Container)
    (p d : Bytes) : (refContainer m (c.rename f) p d).map viewMany = (refContainer m' c p d).map viewMany := by
  cases c with
  | element min max c =>
    rw [Container.rename, refContainer, refContainer]
    exact timesOf_same (refContent_rename f hm c) min max p d
  | compose c => rw [Container.rename, refContainer, refContainer]
theorem refContent_rename (f : String → String) {m m' : Mode} (hm : SameMode m m') (c : Content) :
    SameM (refContent m (c.rename f)) (refContent m' c) := by
  cases c with
  | value n b => rw [Content.rename, refContent, refContent, hm.skip]; exact SameM.refl _
  | external n g =>
    rw [Content.rename, refContent, refContent, hm.reverse]
    intro p d
    simp only
    generalize (refGrammar m'.reverse g p d).strict = r
    cases r <;> simp [Ans.map, view, Shape.rename_bytes]
  | token t =>
    rw [Content.rename, refContent, refContent]
    exact SameM.strict (refToken_rename f hm t)
  | everything n ex esc =>
    cases esc with
    | none =>
      rw [Content.rename, refContent, refContent]
      have hm2 : SameMode ⟨refEscape none, fun _ d => d, !m.reverse⟩
          ⟨refEscape none, fun _ d => d, !m'.reverse⟩ :=
        ⟨by simp [refEscape, SameEsc], rfl, by simp [hm.reverse]⟩
      exact SameM.strict (refToken_rename f hm2 ex)
    | some e =>
      rw [Content.rename, refContent, refContent]
      have hm2 : SameMode ⟨refEscape (some (e.rename f)), fun _ d => d, !m.reverse⟩
          ⟨refEscape (some e), fun _ d => d, !m'.reverse⟩ := by
        refine ⟨?_, rfl, by simp [hm.reverse]⟩
        simp only [refEscape, SameEsc]
        exact refToken_rename f (SameMode.refl _) e
      exact SameM.strict (refToken_rename f hm2 ex)
  | recursive n => rw [Content.rename, refContent, refContent]; exact SameM.refl _
end

/-- Rename the tokens of a channel. -/
def Channel.rename (f : String → String) : Channel → Channel
  | .mk t a b => .mk (t.rename f) (a.map (Token.rename f)) (b.map (Token.rename f))

theorem refCondition_rename (f : String → String) (a : Option Token) (d : Bytes) :
    refCondition (a.map (Token.rename f)) d = refCondition a d := by
  cases a with
  | none => simp [refCondition]
  | some t =>
    simp only [Option.map_some, refCondition]
    rcases Ans.map_eq (refToken_rename f (SameMode.refl Mode.plain) t [] d) with
      ⟨x, y, hx, hy, e⟩ | ⟨hx, hy⟩ | ⟨hx, hy⟩ | ⟨hx, hy⟩ <;> rw [hx, hy] <;> rfl

theorem refChannel_rename (f : String → String) (c : Channel) : refChannel (c.rename f) = refChannel c := by
  rcases c with ⟨t, a, b⟩
  funext p d
  simp only [Channel.rename, refChannel, refCondition_rename]
  rcases Ans.map_eq (refToken_rename f (SameMode.refl Mode.plain) t p d) with
    ⟨x, y, hx, hy, e⟩ | ⟨hx, hy⟩ | ⟨hx, hy⟩ | ⟨hx, hy⟩ <;> rw [hx, hy]
  simp only [view, Prod.mk.injEq] at e
  simp only [e.2]

theorem refChannels_rename (f : String → String) (cs : List Channel) :
    refChannels (cs.map (Channel.rename f)) = refChannels cs := by
  induction cs with
  | nil => rfl
  | cons c cs ih => simp only [List.map_cons, refChannels, refChannel_rename, ih]

/-! ### With references by name -/

mutual
theorem tokenRefs_rename (f : String → String) (t : Token) :
    tokenRefs (t.rename f) = (tokenRefs t).map f := by
  rcases t with ⟨n, ls, ss⟩
  rw [Token.rename, tokenRefs, tokenRefs, linesRefs_rename f ls]
theorem linesRefs_rename (f : String → String) (ls : List GLine) :
    linesRefs (linesRename f ls) = (linesRefs ls).map f := by
  cases ls with
  | nil => rfl
  | cons g gs => rw [linesRename, linesRefs, linesRefs, lineRefs_rename f g, linesRefs_rename f gs, List.map_append]
theorem lineRefs_rename (f : String → String) (g : GLine) :
    lineRefs (g.rename f) = (lineRefs g).map f := by
  rcases g with ⟨cs⟩
  rw [GLine.rename, lineRefs, lineRefs, contsRefs_rename f cs]
theorem contsRefs_rename (f : String → String) (cs : List Container) :
    contsRefs (containersRename f cs) = (contsRefs cs).map f := by
  cases cs with
  | nil => rfl
  | cons c cs =>
    rw [containersRename, contsRefs, contsRefs, contRefs_rename f c, contsRefs_rename f cs, List.map_append]
theorem contRefs_rename (f : String → String) (c : Container) :
    contRefs (c.rename f) = (contRefs c).map f := by
  cases c with
  | element min max c => rw [Container.rename, contRefs, contRefs, contentRefs_rename f c]
  | compose c => rfl
theorem contentRefs_rename (f : String → String) (c : Content) :
    contentRefs (c.rename f) = (contentRefs c).map f := by
  cases c with
  | value n b => rfl
  | external n g => rfl
  | token t => rw [Content.rename, contentRefs, contentRefs, tokenRefs_rename f t]
  | everything n ex esc => cases esc <;> rfl
  | recursive n => rfl
end

/-- The names of the enclosing tokens stand for the same. -/
def SameEnv (f : String → String) (path : List String) (env env' : Env) : Prop :=
  ∀ k ∈ path, SameM (env (f k)) (env' k)

theorem knot_same {F G : Matcher Shape → Matcher Shape}
    (h : ∀ a b, SameM a b → SameM (F a) (G b)) (k : Nat) : SameM (knot F k) (knot G k) := by
  induction k with
  | zero => exact fun _ _ => rfl
  | succ k ih => exact h _ _ ih

section
variable {toks toks' : List Token} (f : String → String) {m m' : Mode}

mutual
theorem recToken_rename (hm : SameMode m m') {path : List String} {env env' : Env}
    (he : SameEnv f path env env') (t : Token) (h : LinTok toks path t)
    (h' : LinTok toks' (path.map f) (t.rename f)) :
    SameM (recToken m env (t.rename f)) (recToken m' env' t) := by
  rcases t with ⟨n, ls, ss⟩
  rw [Token.rename] at h' ⊢
  rw [LinTok] at h h'
  rw [recToken, recToken]
  intro p d
  refine knot_same (fun a b hab => tokenOf_same hm _ _
    (recLines_rename hm (path := n :: path) ?_ ls h.2.2.1 h'.2.2.1)) (d.length + 1) p d
  intro k hk
  by_cases hkn : k = n
  · subst hkn
    simpa [Env.set] using hab
  · rcases List.mem_cons.mp hk with hk | hk
    · exact absurd hk hkn
    · have : f k ≠ f n := fun e => h'.2.1 (by rw [← e]; exact List.mem_map_of_mem hk)
      simp only [Env.set, this, hkn, if_false]
      exact he k hk
theorem recLines_rename (hm : SameMode m m') {path : List String} {env env' : Env}
    (he : SameEnv f path env env') (ls : List GLine) (h : LinLines toks path ls)
    (h' : LinLines toks' (path.map f) (linesRename f ls)) :
    SameEs (recLines m env (linesRename f ls)) (recLines m' env' ls) := by
  cases ls with
  | nil => rw [linesRename, recLines, recLines]; exact .nil
  | cons g gs =>
    rw [linesRename] at h' ⊢
    rw [LinLines] at h h'
    rw [recLines, recLines]
    exact .cons (recLine_rename hm he g h.1 h'.1) (recLines_rename hm he gs h.2 h'.2)
theorem recLine_rename (hm : SameMode m m') {path : List String} {env env' : Env}
    (he : SameEnv f path env env') (g : GLine) (h : LinLine toks path g)
    (h' : LinLine toks' (path.map f) (g.rename f)) :
    SameE (recLine m env (g.rename f)) (recLine m' env' g) := by
  rcases g with ⟨cs⟩
  rw [GLine.rename] at h' ⊢
  rw [LinLine] at h h'
  rw [recLine, recLine]
  exact line_same (recSeq_rename hm he cs h.2.2.2 h'.2.2.2)
theorem recSeq_rename (hm : SameMode m m') {path : List String} {env env' : Env}
    (he : SameEnv f path env env') (cs : List Container) (h : LinConts toks path cs)
    (h' : LinConts toks' (path.map f) (containersRename f cs)) :
    SameE (recSeq m env (containersRename f cs)) (recSeq m' env' cs) := by
  cases cs with
  | nil => rw [containersRename, recSeq, recSeq]; exact fun _ _ => rfl
  | cons c cs =>
    rw [containersRename] at h' ⊢
    rw [LinConts] at h h'
    rw [recSeq, recSeq]
    exact seq_same _ _ (recContainer_rename hm he c h.1 h'.1) (recSeq_rename hm he cs h.2 h'.2)
theorem recContainer_rename (hm : SameMode m m') {path : List String} {env env' : Env}
    (he : SameEnv f path env env') (c : Container) (h : LinCont toks path c)
    (h' : LinCont toks' (path.map f) (c.rename f)) (p d : Bytes) :
    (recContainer m env (c.rename f) p d).map viewMany = (recContainer m' env' c p d).map viewMany := by
  cases c with
  | element min max c =>
    rw [Container.rename] at h' ⊢
    rw [LinCont] at h h'
    rw [recContainer, recContainer]
    exact timesOf_same (recContent_rename hm he c h.2.2 h'.2.2) min max p d
  | compose c => rw [Container.rename, recContainer, recContainer]
theorem recContent_rename (hm : SameMode m m') {path : List String} {env env' : Env}
    (he : SameEnv f path env env') (c : Content) (h : LinContent toks path c)
    (h' : LinContent toks' (path.map f) (c.rename f)) :
    SameM (recContent m env (c.rename f)) (recContent m' env' c) := by
  cases c with
  | value n b =>
    have := refContent_rename f hm (.value n b)
    rw [Content.rename] at this ⊢
    rw [recContent, recContent]
    exact this
  | external n g =>
    have := refContent_rename f hm (.external n g)
    rw [Content.rename] at this ⊢
    rw [recContent, recContent]
    exact this
  | everything n ex esc =>
    have := refContent_rename f hm (.everything n ex esc)
    cases esc with
    | none =>
      rw [Content.rename] at this ⊢
      rw [recContent, recContent]
      exact this
    | some e =>
      rw [Content.rename] at this ⊢
      rw [recContent, recContent]
      exact this
  | token t =>
    rw [Content.rename] at h' ⊢
    rw [LinContent] at h h'
    rw [recContent, recContent]
    refine SameM.strict ?_
    by_cases hr : tokenRefs t = []
    · rw [recToken_noRefs m env (t.rename f) (by rw [tokenRefs_rename, hr]; rfl),
        recToken_noRefs m' env' t hr]
      exact refToken_rename f hm t
    · rcases h with ⟨h, _⟩ | h
      · exact absurd h hr
      rcases h' with ⟨h', _⟩ | h'
      · rw [tokenRefs_rename] at h'
        exact absurd (List.map_eq_nil_iff.mp h') hr
      exact recToken_rename hm he t h h'
  | recursive n =>
    rw [Content.rename] at h' ⊢
    rw [LinContent] at h h'
    rw [recContent, recContent]
    exact SameM.strict (he n h)
end

end

end Rodkina.Ast
