import Verif.Query
import Verif.AstRecode

/-!
# Queries with other bytes and names
-/

namespace Rodkina.Query

open Rodkina.Ast
open QM

variable {W : Type} [Recoding]

/-- The token of a query (libs/queries/domain/queries/token.go:3-66) with its names replaced. -/
def QToken.recode (t : QToken) : QToken :=
  ⟨Recoding.title t.name, Recoding.title t.reverseName, Recoding.title t.elementName, t.index, t.content⟩

mutual
/-- The second query (libs/queries/domain/queries/selector.go:3-36) is the first one with its names replaced; its functions give for
replaced contents what those of the first give for the contents. -/
inductive Recoded : Query W → Query W → Prop
  | mk (t : QToken) {i i' : Inside W} (f : QueryFn W) (h : RecodedInside i i') : Recoded (.mk t i f) (.mk t.recode i' f)
/-- The same of what is done with the contents (libs/queries/domain/queries/inside.go:3-50). -/
inductive RecodedInside : Inside W → Inside W → Prop
  | single {f f' : TContent → Res (List (Any W))} (h : ∀ c, f' c.recode = f c) :
      RecodedInside (.fn (.single f)) (.fn (.single f'))
  | multi {f f' : List TContent → Res (List (Any W))} (h : ∀ cs, f' (cs.map TContent.recode) = f cs) :
      RecodedInside (.fn (.multi f)) (.fn (.multi f'))
  | fetchers {fs fs' : List (Fetcher W)} (h : RecodedFetchers fs fs') : RecodedInside (.fetchers fs) (.fetchers fs')
/-- The same of fetchers (libs/queries/domain/queries/fetchers.go:3-20). -/
inductive RecodedFetchers : List (Fetcher W) → List (Fetcher W) → Prop
  | nil : RecodedFetchers [] []
  | recursive (name : String) {fs fs' : List (Fetcher W)} (h : RecodedFetchers fs fs') :
      RecodedFetchers (.recursive name :: fs) (.recursive (Recoding.title name) :: fs')
  | query {q q' : Query W} {fs fs' : List (Fetcher W)} (hq : Recoded q q') (h : RecodedFetchers fs fs') :
      RecodedFetchers (.query q :: fs) (.query q' :: fs')
end

/-- Entries of the map of queries that correspond. -/
def PrevSame (p p' : Prev W) : Prop := List.Forall₂ (fun a b => b.1 = Recoding.title a.1 ∧ Recoded a.2 b.2) p p'

/-- Outcomes of the same kind, with values related by `R` and corresponding maps. -/
def QOut {α β : Type} (R : α → β → Prop) : Out (α × Prev W) → Out (β × Prev W) → Prop
  | .ok x, .ok y => R x.1 y.1 ∧ PrevSame x.2 y.2
  | .err, .err => True
  | .panic, .panic => True
  | .oof, .oof => True
  | _, _ => False

/-- Computations that correspond. -/
def QSim {α β : Type} (R : α → β → Prop) (m : QM W α) (m' : QM W β) : Prop :=
  ∀ p p', PrevSame p p' → QOut R (m p) (m' p')

theorem QSim.pure {α β : Type} {R : α → β → Prop} {a : α} {b : β} (h : R a b) :
    QSim (W := W) R (Pure.pure a) (Pure.pure b) := fun _ _ hp => ⟨h, hp⟩

theorem QSim.bind {α β γ δ : Type} {R : α → β → Prop} {S : γ → δ → Prop} {m : QM W α} {m' : QM W β} {k : α → QM W γ}
    {k' : β → QM W δ} (hm : QSim R m m') (hk : ∀ a b, R a b → QSim S (k a) (k' b)) : QSim S (m >>= k) (m' >>= k') := by
  intro p p' hp
  have := hm p p' hp
  show QOut S (andThen m k p) (andThen m' k' p')
  unfold andThen
  cases h1 : m p <;> cases h2 : m' p' <;> rw [h1, h2] at this <;>
    first | exact False.elim this | trivial | exact hk _ _ this.1 _ _ this.2

/-- Results of the same kind with related values. -/
def RSame {α β : Type} (R : α → β → Prop) : Res α → Res β → Prop
  | .ok a, .ok b => R a b
  | .err, .err => True
  | .panic, .panic => True
  | _, _ => False

theorem QSim.lift {α β : Type} {R : α → β → Prop} {r : Res α} {r' : Res β} (h : RSame R r r') :
    QSim (W := W) R (lift r) (QM.lift r') := by
  intro p p' hp
  cases r <;> cases r' <;> first | exact ⟨h, hp⟩ | exact h

theorem RSame.refl {α : Type} (r : Res α) : RSame Eq r r := by
  cases r <;> simp [RSame]

/-- Contents that correspond. -/
def CSame (cs cs' : List TContent) : Prop := cs' = cs.map TContent.recode

variable [Recoding.Faithful]

theorem title_ne (a b : String) : Recoding.title a ≠ Recoding.title b ↔ a ≠ b :=
  not_congr ⟨fun h => Recoding.Faithful.titles h, fun h => congrArg _ h⟩

theorem tokenRefine_recode (tok : QToken) (cs : List TContent) :
    RSame CSame (tokenRefine tok cs) (tokenRefine tok.recode (cs.map TContent.recode)) := by
  unfold tokenRefine
  rw [show tok.recode.content = tok.content from rfl]
  cases tok.content with
  | none => rfl
  | some i =>
    simp only [List.getElem?_map]
    cases cs[i]? with
    | none => trivial
    | some c => rfl

theorem elementsLoop_recode (tok : QToken) (es : List TElement) (cpt : Nat) :
    RSame CSame (elementsLoop tok es cpt) (elementsLoop tok.recode (es.map TElement.recode) cpt) := by
  induction es generalizing cpt with
  | nil => rfl
  | cons e es ih =>
    obtain ⟨g, xs⟩ := e
    have hx := tokenRefine_recode tok xs
    rw [← tcontentsRecode_eq] at hx
    cases g with
    | none =>
      simp only [List.map_cons, TElement.recode, elementsLoop, TElement.grammar, Option.map_none, TElement.contents]
      by_cases h : tok.elementName ≠ tok.reverseName
      · rw [if_pos h, if_pos (show tok.recode.elementName ≠ tok.recode.reverseName from (title_ne _ _).mpr h)]
        exact ih cpt
      · rw [if_neg h, if_neg (show ¬ tok.recode.elementName ≠ tok.recode.reverseName from fun x => h ((title_ne _ _).mp x))]
        by_cases hi : tok.index = cpt
        · rw [if_pos hi, if_pos (show tok.recode.index = cpt from hi)]
          exact hx
        · rw [if_neg hi, if_neg (show ¬ tok.recode.index = cpt from hi)]
          trivial
    | some c =>
      simp only [List.map_cons, TElement.recode, elementsLoop, TElement.grammar, Option.map_some, TElement.contents,
        Container.recode_name]
      by_cases h : c.name ≠ tok.elementName
      · rw [if_pos h, if_pos (show Recoding.title c.name ≠ tok.recode.elementName from (title_ne _ _).mpr h)]
        exact ih cpt
      · rw [if_neg h, if_neg (show ¬ Recoding.title c.name ≠ tok.recode.elementName from fun x => h ((title_ne _ _).mp x))]
        by_cases hi : tok.index = cpt
        · rw [if_pos hi, if_pos (show tok.recode.index = cpt from hi)]
          exact hx
        · rw [if_neg hi, if_neg (show ¬ tok.recode.index = cpt from hi)]
          exact ih (cpt + 1)

theorem queryContents_recode (tok : QToken) (t : Tree) :
    RSame CSame (queryContents tok t) (queryContents tok.recode t.recode) := by
  have hg : t.recode.grammar.name = Recoding.title t.grammar.name := by
    obtain ⟨g, b, suf, rem⟩ := t
    exact g.recode_name
  have hb : t.recode.block.successful = t.block.successful.map TLine.recode := by
    obtain ⟨g, ⟨ls, s⟩, suf, rem⟩ := t
    simp only [Tree.recode, Tree.block, Block.recode_eq, Block.successful]
  unfold queryContents
  by_cases h : tok.name ≠ t.grammar.name
  · rw [if_pos h, if_pos (show tok.recode.name ≠ t.recode.grammar.name by rw [hg]; exact (title_ne _ _).mpr h)]
    trivial
  · rw [if_neg h, if_neg (show ¬ tok.recode.name ≠ t.recode.grammar.name by
      rw [hg]; exact fun x => h ((title_ne _ _).mp x)), hb]
    cases t.block.successful with
    | none => trivial
    | some l =>
      obtain ⟨i, gl, rev, es⟩ := l
      simp only [Option.map_some, TLine.recode, TLine.elements, telementsRecode_eq, List.isEmpty_map]
      cases es with
      | nil => trivial
      | cons e es => exact elementsLoop_recode tok (e :: es) 0

/-- Calls that correspond. -/
def RecSame (r r' : Rec W) : Prop := ∀ q q' t, Recoded q q' → QSim Eq (r q t) (r' q' t.recode)

theorem lookup_recode (name : String) :
    QSim (W := W) Recoded (lookup name) (lookup (Recoding.title name)) := by
  intro p p' hp
  have hl : (p.lookup name = none ∧ p'.lookup (Recoding.title name) = none) ∨
      ∃ q q', p.lookup name = some q ∧ p'.lookup (Recoding.title name) = some q' ∧ Recoded q q' := by
    induction hp with
    | nil => exact .inl ⟨rfl, rfl⟩
    | @cons a b p p' hab _ ih =>
      obtain ⟨k, q⟩ := a
      obtain ⟨k', q'⟩ := b
      obtain ⟨hk, hq⟩ := hab
      dsimp only at hk hq
      subst hk
      simp only [List.lookup, title_beq]
      cases name == k with
      | true => exact .inr ⟨q, q', rfl, rfl, hq⟩
      | false => exact ih
  unfold lookup
  rcases hl with ⟨h1, h2⟩ | ⟨q, q', h1, h2, hq⟩
  · rw [h1, h2]; trivial
  · rw [h1, h2]; exact ⟨hq, hp⟩

theorem valid_recode {r r' : Rec W} (h : RecSame r r') {q q' : Query W} (hq : Recoded q q') (t : Tree) :
    QSim Eq (do let x ← r q t; pure (if x.2 then [x.1] else [])) (do let x ← r' q' t.recode; pure (if x.2 then [x.1] else [])) :=
  QSim.bind (h q q' t hq) (fun a b hab => by subst hab; exact QSim.pure rfl)

theorem rowLoop_recode {r r' : Rec W} (h : RecSame r r') (c : TContent) {fs fs' : List (Fetcher W)} (hf : RecodedFetchers fs fs')
    (row : List (Any W)) : QSim Eq (rowLoop r c fs row) (rowLoop r' c.recode fs' row) := by
  induction fs generalizing fs' row with
  | nil => cases hf; exact QSim.pure rfl
  | cons f fs ih =>
    cases hf with
    | recursive name hf =>
      refine QSim.bind (R := Eq) ?_ (fun a b hab => by subst hab; exact ih hf _)
      cases c with
      | value p b => exact QSim.pure rfl
      | tree t => exact QSim.bind (lookup_recode name) (fun q q' hq => valid_recode h hq t)
    | query hq hf =>
      refine QSim.bind (R := Eq) ?_ (fun a b hab => by subst hab; exact ih hf _)
      cases c with
      | value p b => exact QSim.pure rfl
      | tree t => exact valid_recode h hq t

theorem contentsLoop_recode {r r' : Rec W} (h : RecSame r r') {fs fs' : List (Fetcher W)} (hf : RecodedFetchers fs fs')
    (cs : List TContent) (out : List (Any W)) :
    QSim Eq (contentsLoop r fs cs out) (contentsLoop r' fs' (cs.map TContent.recode) out) := by
  induction cs generalizing out with
  | nil => exact QSim.pure rfl
  | cons c cs ih => exact QSim.bind (rowLoop_recode h c hf []) (fun a b hab => by subst hab; exact ih _)

theorem insideInstances_recode {r r' : Rec W} (h : RecSame r r') {i i' : Inside W} (hi : RecodedInside i i')
    (cs : List TContent) : QSim Eq (insideInstances r i cs) (insideInstances r' i' (cs.map TContent.recode)) := by
  cases hi with
  | @single f f' hf =>
    refine QSim.lift ?_
    cases cs with
    | nil => trivial
    | cons c cs =>
      show RSame Eq (f c) (f' c.recode)
      rw [hf]
      exact RSame.refl _
  | @multi f f' hf =>
    refine QSim.lift ?_
    show RSame Eq (f cs) (f' (cs.map TContent.recode))
    rw [hf]
    exact RSame.refl _
  | fetchers hf => exact contentsLoop_recode h hf cs []

theorem fetch_recode (n : Nat) : RecSame (W := W) (fetch n) (fetch n) := by
  induction n with
  | zero => intro q q' t _ p p' _; trivial
  | succ n ih =>
    intro q q' t hq
    cases hq with
    | @mk tok i i' f hi =>
      refine QSim.bind (R := CSame) (QSim.lift (queryContents_recode tok t)) (fun cs cs' hcs => ?_)
      unfold CSame at hcs
      subst hcs
      refine QSim.bind (R := fun _ _ => True) ?_ (fun _ _ _ => ?_)
      · intro p p' hp
        exact ⟨trivial, List.Forall₂.cons ⟨rfl, .mk tok f hi⟩ hp⟩
      refine QSim.bind (insideInstances_recode ih hi cs) (fun a b hab => ?_)
      subst hab
      exact QSim.lift (RSame.refl _)

/-- An answer with the bytes left over replaced. -/
def Answer.recode (a : Answer W) : Answer W := ⟨a.instance_, a.isValid, enc a.remaining⟩

theorem query_recode (n : Nat) {q q' : Query W} (hq : Recoded q q') (t : Tree) :
    execute n q' t.recode = (execute n q t).map Answer.recode := by
  have := fetch_recode n q q' t hq [] [] .nil
  unfold execute
  cases h1 : fetch n q t [] <;> cases h2 : fetch n q' t.recode [] <;> rw [h1, h2] at this <;>
    first | exact False.elim this | rfl | skip
  · have h3 := this.1
    simp only [answer, Out.map, Answer.recode, Tree.recode_remaining]
    rw [h3]

end Rodkina.Query
