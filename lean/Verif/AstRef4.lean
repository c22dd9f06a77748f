import Verif.AstRef3
import Verif.AstProps2

/-!
# The reference interpreter: what was read before, words, texts up to an exception
-/

namespace Rodkina.Ast

open Rodkina.Props

/-! ### From the reference interpreter to outcomes -/

theorem refGrammar_plain (t : Token) : refGrammar false (.mk t []) = refToken Mode.plain t := by
  have : (fun (p d : Bytes) => channelsSkip (refChannels []) (d.length + 1) p d) = fun _ d => d := by
    funext p d
    simp [refChannels, channelsSkip, channelsOnce]
  rw [refGrammar, this]
  rfl

theorem AgreesR.succeeds {g : Grammar} {input : Bytes} {x : Shape × Bytes}
    (h : AgreesR g input (.found x)) : Succeeds g input x.1.bytes x.2 := by
  obtain ⟨t, h1, h2, h3, h4⟩ := h
  exact ⟨t, h1, h2, by rw [Tree.bytes_shape, h3], h4⟩

theorem AgreesR.rejects {g : Grammar} {input : Bytes} {r : Ans (Shape × Bytes)}
    (h : AgreesR g input r) (hr : r = .blank ∨ r = .refused) : Rejects g input := by
  rcases hr with rfl | rfl
  · exact .inr h
  · exact .inl h

/-- A tree is returned exactly when the reference interpreter finds something or nothing at all. -/
theorem AgreesR.tree_iff {g : Grammar} {input : Bytes} {r : Ans (Shape × Bytes)}
    (h : AgreesR g input r) : (∃ t, Parses g input (.ok t)) ↔ r.holds = true := by
  cases r with
  | found x => exact ⟨fun _ => rfl, fun _ => ⟨h.choose, h.choose_spec.1⟩⟩
  | blank => exact ⟨fun _ => rfl, fun _ => ⟨h.choose, h.choose_spec.1⟩⟩
  | refused =>
    refine ⟨?_, fun h => absurd h (by simp [Ans.holds])⟩
    rintro ⟨t, ht⟩
    exact absurd (ht.unique h) (by simp)
  | crash =>
    refine ⟨?_, fun h => absurd h (by simp [Ans.holds])⟩
    rintro ⟨t, ht⟩
    exact absurd (ht.unique h) (by simp)

/-- A successful tree leaves what the reference interpreter leaves. -/
theorem AgreesR.ok_iff {g : Grammar} {input : Bytes} {r : Ans (Shape × Bytes)}
    (h : AgreesR g input r) (rest : Bytes) :
    (∃ t, Parses g input (.ok t) ∧ t.isSuccessful = true ∧ t.remaining = rest) ↔
      ∃ x, r = .found x ∧ x.2 = rest := by
  constructor
  · rintro ⟨t, h1, h2, h3⟩
    cases r with
    | found x =>
      obtain ⟨u, g1, _, _, g4⟩ := h
      have := h1.unique g1
      injection this with this
      subst this
      exact ⟨x, rfl, by rw [← g4, h3]⟩
    | blank =>
      obtain ⟨u, g1, g2⟩ := h
      have := h1.unique g1
      injection this with this
      subst this
      rw [h2] at g2
      exact absurd g2 (by simp)
    | refused => exact absurd (h1.unique h) (by simp)
    | crash => exact absurd (h1.unique h) (by simp)
  · rintro ⟨x, rfl, h2⟩
    obtain ⟨u, g1, g2, _, g4⟩ := h
    exact ⟨u, g1, g2, by rw [g4, h2]⟩

/-! ### Without escape tokens and external grammars, what was read before plays no role -/

/-- A matcher that does not look at what was read before. -/
def Blind {α : Type} (f : Matcher α) : Prop := ∀ p p' d, f p d = f p' d

/-- A mode that does not. -/
structure Mode.Blind (m : Mode) : Prop where
  skip : ∀ p p' d, m.skip p d = m.skip p' d
  escape : ∀ e, m.escape = some e → Ast.Blind e

theorem Mode.plain_blind : Mode.plain.Blind := ⟨fun _ _ _ => rfl, fun _ h => by simp [Mode.plain] at h⟩

/-- What was matched and the rest. -/
def dropPrev {α : Type} (x : α × Bytes × Bytes) : α × Bytes := (x.1, x.2.2)

theorem Ans.map_map {α β γ : Type} (f : α → β) (g : β → γ) (r : Ans α) :
    (r.map f).map g = r.map (fun x => g (f x)) := by
  cases r <;> rfl

theorem Ans.map_bind {α β γ : Type} (f : α → β) (g : β → Ans γ) (r : Ans α) :
    (r.map f).bind g = r.bind (fun x => g (f x)) := by
  cases r <;> rfl

theorem bind_dropPrev {α β : Type} {r r' : Ans (α × Bytes × Bytes)} (h : r.map dropPrev = r'.map dropPrev)
    {g : α × Bytes × Bytes → Ans β} (hg : ∀ x x', dropPrev x = dropPrev x' → g x = g x') :
    r.bind g = r'.bind g := by
  cases r <;> cases r' <;> simp only [Ans.map, Ans.found.injEq, reduceCtorEq] at h <;>
    first | rfl | exact hg _ _ h

theorem blind_manyOf {α : Type} {f : Matcher α} (hf : Blind f) (max : Option Nat) (k n : Nat)
    (p p' d : Bytes) : (manyOf f max k n p d).map dropPrev = (manyOf f max k n p' d).map dropPrev := by
  induction k generalizing n p p' d with
  | zero => rfl
  | succ k ih =>
    unfold manyOf
    by_cases h : d = [] ∨ max = some n
    · rw [if_pos h, if_pos h]
      rfl
    · rw [if_neg h, if_neg h, hf p p' d]
      cases f p' d with
      | found x =>
        simp only [Ans.map_map]
      | blank => rfl
      | refused => rfl
      | crash => rfl

theorem blind_timesOf {α : Type} {f : Matcher α} (hf : Blind f) (min : Nat) (max : Option Nat)
    (p p' d : Bytes) : (timesOf f min max p d).map dropPrev = (timesOf f min max p' d).map dropPrev := by
  have key : ∀ q, (timesOf f min max q d).map dropPrev =
      ((manyOf f max d.length 0 q d).map dropPrev).bind
        (fun x => if x.1.length < min then .refused else .found x) := by
    intro q
    unfold timesOf
    rw [Ans.map_bind]
    cases manyOf f max d.length 0 q d with
    | found x =>
      simp only [Ans.bind, dropPrev]
      by_cases h : x.1.length < min
      · simp [h, Ans.map]
      · simp [h, Ans.map, dropPrev]
    | blank => rfl
    | refused => rfl
    | crash => rfl
  rw [key, key, blind_manyOf hf max _ _ p p' d]

theorem blind_escaped {esc : Option (Matcher Shape)} {ex : Matcher (List ShapeElem)}
    (he : ∀ e, esc = some e → Blind e) (p p' d : Bytes) :
    (escaped esc ex p d).map dropPrev = (escaped esc ex p' d).map dropPrev := by
  unfold escaped
  cases esc with
  | none => rfl
  | some e =>
    simp only
    rw [he e rfl p p' d]
    cases e p' d with
    | found x =>
      simp only
      by_cases h : x.2 = []
      · rw [if_pos h, if_pos h]; rfl
      · rw [if_neg h, if_neg h]
        cases ex d x.2 <;> rfl
    | blank => rfl
    | refused => rfl
    | crash => rfl

theorem blind_upTo {esc : Option (Matcher Shape)} {ex : Matcher (List ShapeElem)}
    (he : ∀ e, esc = some e → Blind e) (hx : Blind ex) (k : Nat) : Blind (upTo esc ex k) := by
  intro p p' d
  cases k with
  | zero => rfl
  | succ k =>
    unfold upTo
    by_cases h : d = []
    · rw [if_pos h, if_pos h]
    · rw [if_neg h, if_neg h]
      refine bind_dropPrev (blind_escaped he p p' d) (fun x x' hxx => ?_)
      simp only [dropPrev, Prod.mk.injEq] at hxx
      rw [hx x.2.1 x'.2.1 x.2.2, hxx.1, hxx.2]

theorem blind_firstOf {fs : List (Matcher (List ShapeElem))} (h : ∀ f ∈ fs, Blind f) (i : Nat) :
    Blind (firstOf fs i) := by
  intro p p' d
  induction fs generalizing i with
  | nil => rfl
  | cons f fs ih =>
    unfold firstOf
    rw [h f (by simp) p p' d, ih (fun f hf => h f (by simp [hf])) (i + 1)]

theorem blind_tokenOf {m : Mode} (hm : m.Blind) (name : String)
    {fs : List (Matcher (List ShapeElem))} (h : ∀ f ∈ fs, Blind f) : Blind (tokenOf m name fs) := by
  intro p p' d
  unfold tokenOf
  have hsk : m.skip p = m.skip p' := funext (hm.skip p p')
  by_cases hr : m.reverse
  · rw [if_pos hr, if_pos hr]
    cases fs with
    | nil => rfl
    | cons f fs =>
      simp only
      rw [blind_upTo hm.escape (h f (by simp)) _ p p' d, hsk]
  · rw [if_neg hr, if_neg hr, blind_firstOf h 0 p p' d, hsk]

mutual
theorem blind_token {m : Mode} (hm : m.Blind) : ∀ t : Token, TokOK Flags.none t →
    Blind (refToken m t)
  | .mk name ls ss => by
    intro h
    rw [refToken]
    unfold TokOK at h
    rw [Token.All] at h
    exact blind_tokenOf hm name (blind_lines hm ls h)
theorem blind_lines {m : Mode} (hm : m.Blind) : ∀ gs : List GLine,
    linesAll (lineAllowed Flags.none) gs → ∀ f ∈ refLines m gs, Blind f
  | [] => by simp [refLines]
  | g :: gs => by
    intro h f hf
    rw [linesAll] at h
    rw [refLines] at hf
    rcases List.mem_cons.mp hf with rfl | hf
    · exact blind_line hm g h.1
    · exact blind_lines hm gs h.2 f hf
theorem blind_line {m : Mode} (hm : m.Blind) : ∀ g : GLine,
    GLine.All (lineAllowed Flags.none) g → Blind (refLine m g)
  | .mk cs => by
    intro h p p' d
    rw [GLine.All] at h
    rw [refLine]
    beta_reduce
    rw [blind_seq hm cs h.2 h.1 p p' d]
theorem blind_seq {m : Mode} (hm : m.Blind) : ∀ cs : List Container,
    containersAll (lineAllowed Flags.none) cs → (∀ c ∈ cs, containerAllowed Flags.none c) →
    Blind (refSeq m cs)
  | [] => by
    intro _ _ p p' d
    rw [refSeq]
  | c :: cs => by
    intro h ha p p' d
    rw [containersAll] at h
    rw [refSeq]
    beta_reduce
    have hs := blind_seq hm cs h.2 (fun c hc => ha c (by simp [hc]))
    have hc := blind_container hm c h.1 (ha c (by simp)) p p' d
    refine bind_dropPrev hc (fun x x' hxx => ?_)
    simp only [dropPrev, Prod.mk.injEq] at hxx
    rw [hs x.2.1 x'.2.1 x.2.2, hxx.1, hxx.2]
theorem blind_container {m : Mode} (hm : m.Blind) : ∀ c : Container,
    Container.All (lineAllowed Flags.none) c → containerAllowed Flags.none c →
    ∀ p p' d, (refContainer m c p d).map dropPrev = (refContainer m c p' d).map dropPrev
  | .element min max c => by
    intro h ha p p' d
    rw [Container.All] at h
    rw [refContainer]
    exact blind_timesOf (blind_content hm c h (by
      cases c with
      | external _ _ => exact False.elim ha
      | everything _ _ e =>
        cases e with
        | none => trivial
        | some _ => exact False.elim ha
      | value _ _ => trivial
      | token _ => trivial
      | recursive _ => trivial)) min max p p' d
  | .compose _ => by
    intro _ _ p p' d
    rw [refContainer]
theorem blind_content {m : Mode} (hm : m.Blind) : ∀ c : Content,
    Content.All (lineAllowed Flags.none) c →
    (match c with
      | .external _ _ => False
      | .everything _ _ (some _) => False
      | _ => True) → Blind (refContent m c)
  | .value _ b => by
    intro _ _ p p' d
    rw [refContent]
    unfold oneByte
    rw [hm.skip p p' d]
  | .token t => by
    intro h _ p p' d
    rw [Content.All] at h
    rw [refContent]
    beta_reduce
    rw [blind_token hm t h p p' d]
  | .everything _ ex none => by
    intro h _ p p' d
    rw [Content.All] at h
    rw [refContent, refEscape]
    beta_reduce
    rw [blind_token (m := ⟨none, fun _ d => d, !m.reverse⟩)
      ⟨fun _ _ _ => rfl, fun _ h => by simp at h⟩ ex h p p' d]
  | .everything _ ex (some _) => by
    intro _ h
    exact False.elim h
  | .external _ _ => by
    intro _ h
    exact False.elim h
  | .recursive _ => by
    intro _ _ p p' d
    rw [refContent]
end

/-! ### Everything up to an exception -/

/-- Without escape token. -/
theorem upTo_none {f : Matcher (List ShapeElem)} {S : Bytes → Bool}
    (hf : ∀ p d, f p d ≠ .crash ∧ (f p d).holds = S d) (k : Nat) (p d : Bytes) (hk : d.length < k) :
    upTo none f k p d = .found (textUntil S d) := by
  induction k generalizing p d with
  | zero => omega
  | succ k ih =>
    unfold upTo
    cases d with
    | nil => simp [textUntil]
    | cons b r =>
      rw [if_neg (by simp)]
      simp only [escaped, Ans.bind]
      obtain ⟨h1, h2⟩ := hf p (b :: r)
      unfold textUntil
      cases hfd : f p (b :: r) with
      | found x =>
        rw [hfd] at h2
        simp [← h2, Ans.holds]
      | blank =>
        rw [hfd] at h2
        simp [← h2, Ans.holds]
      | crash => exact absurd hfd h1
      | refused =>
        rw [hfd] at h2
        simp only [← h2, Ans.holds, Bool.false_eq_true, if_false]
        rw [ih (b :: r) r (by simp at hk; omega)]
        simp [Ans.map]

/-- Containers of bytes. -/
def BytesOnly (cs : List Container) : Prop :=
  ∀ c ∈ cs, ∃ min max name b, c = .element min max (.value name b)

theorem refSeq_bytes {m m' : Mode} (h : m.skip = m'.skip) {cs : List Container} (hcs : BytesOnly cs) :
    refSeq m cs = refSeq m' cs := by
  induction cs with
  | nil => rw [refSeq, refSeq]
  | cons c cs ih =>
    obtain ⟨min, max, name, b, rfl⟩ := hcs c (by simp)
    rw [refSeq, refSeq, ih (fun c hc => hcs c (by simp [hc]))]
    simp only [refContainer, refContent, h]

theorem refLine_bytes {m m' : Mode} (h : m.skip = m'.skip) {cs : List Container} (hcs : BytesOnly cs) :
    refLine m (.mk cs) = refLine m' (.mk cs) := by
  rw [refLine, refLine, refSeq_bytes h hcs]

theorem bytesOnly_word (w : Bytes) : BytesOnly (w.map byteC) := by
  intro c hc
  obtain ⟨b, _, rfl⟩ := List.mem_map.mp hc
  exact ⟨1, some 1, "byte", b, rfl⟩

theorem sameNames_word (w : Bytes) : sameNames (w.map byteC) := by
  intro c hc c' hc' _
  obtain ⟨b, _, rfl⟩ := List.mem_map.mp hc
  obtain ⟨b', _, rfl⟩ := List.mem_map.mp hc'
  simp [byteC, Container.min]

theorem refConts_bytes {path : List String} {cs : List Container} (hcs : BytesOnly cs)
    (hm : ∀ c ∈ cs, c.min < 2 ^ 63) : RefConts path cs := by
  induction cs with
  | nil => simp [RefConts]
  | cons c cs ih =>
    obtain ⟨min, max, name, b, rfl⟩ := hcs c (by simp)
    rw [RefConts]
    refine ⟨?_, ih (fun c hc => hcs c (by simp [hc])) (fun c hc => hm c (by simp [hc]))⟩
    have := hm (.element min max (.value name b)) (by simp)
    simp only [Container.min] at this
    exact ⟨this, by simp [RefContent]⟩

theorem wordMin (w : Bytes) : ∀ c ∈ w.map byteC, c.min < 2 ^ 63 := by
  intro c hc
  obtain ⟨b, _, rfl⟩ := List.mem_map.mp hc
  simp [byteC, Container.min]

/-- One occurrence. -/
theorem timesOf_once {α : Type} (f : Matcher α) (p d : Bytes) :
    timesOf f 1 (some 1) p d =
      if d = [] then .refused
      else match f p d with
        | .found x => .found ([x.1], d, x.2)
        | .crash => .crash
        | _ => .refused := by
  unfold timesOf
  cases d with
  | nil => simp [manyOf, Ans.bind]
  | cons b r =>
    rw [if_neg (by simp), List.length_cons]
    unfold manyOf
    rw [if_neg (by simp)]
    cases f p (b :: r) with
    | found x =>
      simp only
      have : manyOf f (some 1) r.length (0 + 1) (b :: r) x.2 = .found ([], b :: r, x.2) := by
        cases r.length with
        | zero => rfl
        | succ k => unfold manyOf; rw [if_pos (.inr rfl)]
      rw [this]
      simp [Ans.map, Ans.bind]
    | blank => simp [Ans.bind]
    | refused => simp [Ans.bind]
    | crash => rfl

theorem shapesBytes_bytes (l : Bytes) : shapesBytes (l.map .byte) = l := by
  rw [shapesBytes_eq, List.map_map]
  induction l with
  | nil => rfl
  | cons b l ih => rw [List.map_cons, List.flatten_cons, ih]; rfl

end Rodkina.Ast
