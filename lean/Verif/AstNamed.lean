import Verif.AstPeg

/-!
# The reference interpreter when elements share names

A matched alternative is accepted when, for every element it asks for, the *last* recorded element of
that name has enough occurrences (libs/asts/domain/trees/line.go:72-132).  Here the reference
interpreter of AstSpec.lean has that rule built in, so nothing is assumed about the names of elements.
-/

namespace Rodkina.Ast

open M

/-- Name of an element. -/
def ShapeElem.title : ShapeElem → String
  | .mk name _ => name

/-- Number of occurrences of an element. -/
def ShapeElem.count : ShapeElem → Nat
  | .mk _ cs => cs.length

/-- For every element the alternative asks for, the last matched element of that name has enough occurrences. -/
def lastMeets (cs : List Container) (xs : List ShapeElem) : Bool :=
  cs.all (fun c => decide (c.min = 0) ||
    (xs.reverse.find? (fun x => x.title == c.name)).any (fun x => decide (c.min ≤ x.count)))

mutual
/-- A token: the first line that matches is taken, then channel bytes are skipped. -/
def namedToken (sk : Bytes → Bytes) : Token → Bytes → Option (Shape × Bytes)
  | .mk name ls _, d => (namedLines sk 0 ls d).map (fun x => (.node name x.1 x.2.1, sk x.2.2))
/-- First matching line, its number (starting at `i`), its elements and the rest. -/
def namedLines (sk : Bytes → Bytes) : Nat → List GLine → Bytes → Option (Nat × List ShapeElem × Bytes)
  | _, [], _ => none
  | i, g :: gs, d => ((namedLine sk g d).map (fun x => (i, x))).orElse
      (fun _ => namedLines sk (i + 1) gs d)
/-- A line matches when all its containers match in sequence, something was matched, and the last
elements of each name suffice. -/
def namedLine (sk : Bytes → Bytes) : GLine → Bytes → Option (List ShapeElem × Bytes)
  | .mk cs, d => (namedSeq sk cs d).bind (fun x => if x.1.isEmpty || !lastMeets cs x.1 then none else some x)
/-- Containers in sequence. -/
def namedSeq (sk : Bytes → Bytes) : List Container → Bytes → Option (List ShapeElem × Bytes)
  | [], d => some ([], d)
  | c :: cs, d => (namedContainer sk c d).bind (fun x =>
      (namedSeq sk cs x.2).map (fun y => (consElem c.name x.1 y.1, y.2)))
/-- Greedy repetition of an element; composes do not match. -/
def namedContainer (sk : Bytes → Bytes) : Container → Bytes → Option (List Shape × Bytes)
  | .element min max c, d => greedy (namedContent sk c) min max d
  | .compose _, _ => none
/-- A byte, a token, or everything except a token; the other contents are outside this semantics. -/
def namedContent (sk : Bytes → Bytes) : Content → Bytes → Option (Shape × Bytes)
  | .value _ b, d => byteMatch sk b d
  | .token t, d => namedToken sk t d
  | .everything _ ex _, d => everythingMatch ex d
  | .external _ _, _ => none
  | .recursive _, _ => none
end

mutual
/-- The grammars covered: `path` are the names of the enclosing tokens; elements may share names. -/
def NamedTok (path : List String) : Token → Prop
  | .mk name ls _ => name ∉ path ∧ NamedLines (name :: path) ls
/-- All lines. -/
def NamedLines (path : List String) : List GLine → Prop
  | [] => True
  | g :: gs => NamedLine path g ∧ NamedLines path gs
/-- One line. -/
def NamedLine (path : List String) : GLine → Prop
  | .mk cs => NamedConts path cs
/-- All containers. -/
def NamedConts (path : List String) : List Container → Prop
  | [] => True
  | c :: cs => NamedCont path c ∧ NamedConts path cs
/-- One container. -/
def NamedCont (path : List String) : Container → Prop
  | .element m _ c => m < 2 ^ 63 ∧ NamedContent path c
  | .compose _ => True
/-- One content. -/
def NamedContent (path : List String) : Content → Prop
  | .value _ _ => True
  | .token t => NamedTok path t
  | .everything _ ex esc => esc = none ∧ ex.name ∉ path ∧
      ∀ g, ex.lines.head? = some g → ∀ c ∈ g.containers, c.isBytes
  | .external _ _ => False
  | .recursive _ => False
end

theorem namedSeq_eq (sk : Bytes → Bytes) (cs : List Container) (d : Bytes) :
    namedSeq sk cs d = seqWith (namedContent sk) cs d := by
  induction cs generalizing d with
  | nil => rfl
  | cons c cs ih =>
    unfold namedSeq
    cases c with
    | compose c => rfl
    | element min max c =>
      simp only [namedContainer, seqWith, ih, Container.name]

theorem elementsShape_map (es : List TElement) : elementsShape es = es.map TElement.shape := by
  induction es with
  | nil => rfl
  | cons e es ih => simp [elementsShape, ih]

theorem fetch_shape {cs : List Container} {es : List TElement} (h : ElemsFor cs es) (name : String) (m : Nat) :
    (fetchElement es name).any (fun e => decide (m ≤ e.amount)) =
      ((elementsShape es).reverse.find? (fun x => x.title == name)).any (fun x => decide (m ≤ x.count)) := by
  rw [elementsShape_map, ← List.map_reverse, List.find?_map, Option.any_map]
  unfold fetchElement
  have hk : ∀ e ∈ es.reverse, (e.key == some name) = ((fun x : ShapeElem => x.title == name) ∘ TElement.shape) e := by
    intro e he
    obtain ⟨min, max, c, _, hg, _⟩ := h.from_ e (by simpa using he)
    rcases e with ⟨g, xs⟩
    simp only [TElement.grammar] at hg
    subst hg
    simp only [TElement.key, TElement.grammar, Option.map_some, Function.comp, TElement.shape, Option.getD_some, ShapeElem.title]
    rw [Bool.eq_iff_iff]
    simp
  have hc : ∀ e : TElement, decide (m ≤ e.amount) = ((fun x : ShapeElem => decide (m ≤ x.count)) ∘ TElement.shape) e := by
    rintro ⟨g, xs⟩
    simp [TElement.amount, TElement.contents, TElement.shape, ShapeElem.count, contentsShape_eq]
    rfl
  have hfind : ∀ l : List TElement, (∀ e ∈ l, (e.key == some name) = ((fun x : ShapeElem => x.title == name) ∘ TElement.shape) e) →
      l.find? (fun e => e.key == some name) = l.find? ((fun x : ShapeElem => x.title == name) ∘ TElement.shape) := by
    intro l
    induction l with
    | nil => intro _; rfl
    | cons e l ih =>
      intro hl
      rw [List.find?_cons, List.find?_cons, hl e (by simp), ih (fun e he => hl e (by simp [he]))]
  rw [hfind _ hk]
  congr 1
  funext e
  exact hc e

theorem ElemsFor.successful_named {cs : List Container} {es : List TElement} (h : ElemsFor cs es) (idx : Nat) :
    (TLine.mk idx (.mk cs) false es).isSuccessful = (!es.isEmpty && lastMeets cs (elementsShape es)) := by
  unfold TLine.isSuccessful
  have h1 : es.all TElement.isSuccessful = true := by
    rw [List.all_eq_true]
    intro e he
    obtain ⟨min, max, c, _, hg, hmin, _, hmax⟩ := h.from_ e he
    rcases e with ⟨g, xs⟩
    simp only [TElement.grammar] at hg
    subst hg
    simp only [TElement.isSuccessful, Bool.and_eq_true, decide_eq_true_eq]
    exact ⟨hmin, hmax⟩
  have h2 : ∀ c ∈ cs, containerSatisfied es c = (decide (c.min = 0) ||
      ((elementsShape es).reverse.find? (fun x => x.title == c.name)).any (fun x => decide (c.min ≤ x.count))) := by
    intro c hc
    obtain ⟨⟨min, max, ct, rfl⟩, _⟩ := h.all c hc
    simp only [containerSatisfied, Container.min, Container.name, fetch_shape h]
    rfl
  have h3 : cs.all (containerSatisfied es) = lastMeets cs (elementsShape es) := by
    unfold lastMeets
    rw [Bool.eq_iff_iff, List.all_eq_true, List.all_eq_true]
    exact ⟨fun hh c hc => by rw [← h2 c hc]; exact hh c hc, fun hh c hc => by rw [h2 c hc]; exact hh c hc⟩
  simp only [h1, GLine.containers, h3, Bool.and_true, Bool.false_or]

/-! ### Blocks and tokens -/

theorem mem_namedLines {path : List String} {g : GLine} {gs : List GLine} (h : NamedLines path gs)
    (hg : g ∈ gs) : NamedLine path g := by
  induction gs with
  | nil => simp at hg
  | cons a gs ih =>
    unfold NamedLines at h
    rcases List.mem_cons.mp hg with rfl | hg
    · exact h.1
    · exact ih h.2 hg

theorem mem_namedConts {path : List String} {c : Container} {cs : List Container}
    (h : NamedConts path cs) (hc : c ∈ cs) : NamedCont path c := by
  induction cs with
  | nil => simp at hc
  | cons a cs ih =>
    unfold NamedConts at h
    rcases List.mem_cons.mp hc with rfl | hc
    · exact h.1
    · exact ih h.2 hc

/-- Hypothesis about the recursive call. -/
def NamedRec (n K : Nat) (ctx : Ctx) (sk : Bytes → Bytes) : Prop :=
  ∀ t path, NamedTok path t → tokenD t ≤ K → ∀ prev cur s, KeysIn path s →
    Found (token n t ctx prev cur s) s (namedToken sk t cur)

section
variable {n K : Nat} {ctx : Ctx} {sk : Bytes → Bytes} {path : List String}

theorem run_namedContent (hrec : NamedRec n K ctx sk) (hsk : SkipIs (token n) ctx.channels sk)
    (hrev : ctx.reverse = false) {c : Content} (hc : NamedContent path c) (hD : contentD c ≤ K)
    (hKn : K ≤ n) {s : Stk} (hs : KeysIn path s) :
    ElemRun (token n) c ctx (namedContent sk c) s := by
  cases c with
  | value name b =>
    have : namedContent sk (.value name b) = byteMatch sk b := by funext d; simp [namedContent]
    rw [this]
    exact run_value hsk name b s
  | token t =>
    have : namedContent sk (.token t) = namedToken sk t := by funext d; simp [namedContent]
    rw [this]
    exact run_tree (t := t) (ctx' := ctx) (fun _ _ => rfl)
      (fun prev cur => hrec t path hc hD prev cur s hs)
  | everything name ex esc =>
    unfold NamedContent at hc
    obtain ⟨rfl, hk, hg⟩ := hc
    have : namedContent sk (.everything name ex none) = everythingMatch ex := by
      funext d; simp [namedContent]
    rw [this]
    have h1 : 1 ≤ contentD (.everything name ex none) := tokenD_pos ex
    obtain ⟨m, rfl⟩ : ∃ m, n = m + 1 := ⟨n - 1, by omega⟩
    refine run_tree (t := ex) (ctx' := ⟨none, [], true⟩) ?_
      (fun prev cur => run_everything hs hk hg prev cur)
    intro prev cur
    simp [elementContent, hrev]
  | external name g => exact absurd hc (by simp [NamedContent])
  | recursive name => exact absurd hc (by simp [NamedContent])

theorem run_namedBlock (hrec : NamedRec n K ctx sk) (hsk : SkipIs (token n) ctx.channels sk)
    (hrev : ctx.reverse = false) (hKn : K ≤ n) {s : Stk} (hs : KeysIn path s) {tok : Token}
    (hk : tok.name ∉ path) (prev cur : Bytes) (gs : List GLine) (idx : Nat)
    (hgs : ∀ g ∈ gs, NamedLine (tok.name :: path) g) (hD : ∀ g ∈ gs, lineD g ≤ K)
    (acc : List TLine) (lines : List (Nat × Bytes)) (hlines : ∀ p ∈ lines, p.1 < idx) :
    BlockRun tok (blockLoop (token n) tok ctx prev cur idx gs acc ((tok.name, ⟨tok, lines⟩) :: s))
      s acc cur (namedLines sk idx gs cur) := by
  induction gs generalizing idx acc lines with
  | nil =>
    simp only [namedLines, BlockRun, blockLoop, pure_apply]
    exact ⟨[], lines, by simp, by simp⟩
  | cons g gs ih =>
    rcases g with ⟨cs⟩
    have hg := hgs (.mk cs) (by simp)
    unfold NamedLine at hg
    have hd := hD (.mk cs) (by simp)
    simp only [lineD] at hd
    have hlook : lines.lookup idx = none := by
      rw [List.lookup_eq_none_iff]
      intro p hp
      have := hlines p hp
      simp only [ne_eq, bne_iff_ne]
      omega
    have hlines' : ∀ p ∈ (idx, cur) :: lines, p.1 < idx + 1 := by
      intro p hp
      rcases List.mem_cons.mp hp with rfl | hp
      · simp
      · have := hlines p hp; omega
    have ih' := fun acc => ih (idx + 1) (fun g h => hgs g (by simp [h]))
      (fun g h => hD g (by simp [h])) acc ((idx, cur) :: lines) hlines'
    unfold blockLoop
    rw [bind_apply, tried_run _ idx cur hlook]
    simp only [Bool.false_eq_true, if_false]
    rw [bind_apply, record_run hs hk]
    simp only [hrev, Bool.false_eq_true, if_false]
    rw [bind_apply]
    unfold M.attempt
    have hline := run_line (sk := sk) (f := namedContent sk)
      (s := (tok.name, ⟨tok, (idx, cur) :: lines⟩) :: s) hsk prev cur cs
      (fun min max c h => by
        have := mem_namedConts hg h
        unfold NamedCont at this
        exact this.1)
      (fun min max c h => by
        have h1 := mem_namedConts hg h
        have h2 := containersD_mem h
        unfold NamedCont at h1
        unfold containerD at h2
        exact run_namedContent hrec hsk hrev h1.2 (by omega) hKn (keysIn_cons hs _ _)) idx
    unfold namedLines namedLine
    rw [namedSeq_eq]
    cases hseq : seqWith (namedContent sk) cs cur with
    | none =>
      rw [hseq] at hline
      simp only at hline
      rw [hline]
      simp only [lineNext, Option.bind_none, Option.map_none, Option.orElse_none]
      exact ih' acc
    | some y =>
      rw [hseq] at hline
      obtain ⟨es, h1, h2, h3⟩ := hline
      rw [h1]
      simp only [lineNext, Option.bind_some]
      have hsucc := h3.successful_named idx
      rw [h2, show es.isEmpty = y.1.isEmpty by rw [← h2]; cases es <;> rfl] at hsucc
      by_cases hok : (y.1.isEmpty || !lastMeets cs y.1) = true
      · have hf : (TLine.mk idx (.mk cs) false es).isSuccessful = false := by
          rw [hsucc]
          cases hx : y.1.isEmpty <;> cases hz : lastMeets cs y.1 <;> simp_all
        simp only [hf, Bool.false_eq_true, if_false, hok, if_true, Option.map_none, Option.orElse_none]
        have := ih' (acc ++ [.mk idx (.mk cs) false es])
        unfold BlockRun at this ⊢
        cases hp : namedLines sk (idx + 1) gs cur with
        | none =>
          rw [hp] at this
          obtain ⟨ls, lines', e1, e2⟩ := this
          refine ⟨.mk idx (.mk cs) false es :: ls, lines', by rw [e1]; simp, ?_⟩
          intro l hl
          rcases List.mem_cons.mp hl with rfl | hl
          · exact hf
          · exact e2 l hl
        | some x =>
          rw [hp] at this
          obtain ⟨ls, l, lines', e1, e2, e3, e4⟩ := this
          refine ⟨.mk idx (.mk cs) false es :: ls, l, lines', by rw [e1]; simp, e2, ?_, e4⟩
          intro l hl
          rcases List.mem_cons.mp hl with rfl | hl
          · exact hf
          · exact e3 l hl
      · have ht : (TLine.mk idx (.mk cs) false es).isSuccessful = true := by
          rw [hsucc]
          cases hx : y.1.isEmpty <;> cases hz : lastMeets cs y.1 <;> simp_all
        simp only [ht, if_true, hok, Bool.false_eq_true, if_false, Option.map_some,
          Option.orElse_some, BlockRun]
        exact ⟨[], .mk idx (.mk cs) false es, (idx, cur) :: lines, by simp, ht, by simp,
          by simp [TLine.shape, h2]⟩

theorem namedRec_succ (hrec : NamedRec n K ctx sk) (hsk : SkipIs (token n) ctx.channels sk)
    (hrev : ctx.reverse = false) (hKn : K ≤ n) : NamedRec (n + 1) (K + 1) ctx sk := by
  intro t path ht hD prev cur s hs
  rcases t with ⟨name, ls, suites⟩
  unfold NamedTok at ht
  unfold tokenD at hD
  have hblk := run_namedBlock hrec hsk hrev hKn hs (tok := .mk name ls suites) ht.1 prev cur ls 0
    (fun g hg => mem_namedLines ht.2 hg) (fun g hg => by have := linesD_mem hg; omega) [] []
    (by simp)
  have hk : (Token.mk name ls suites).name ∉ path := ht.1
  unfold token tokenBody
  rw [bind_apply, enter_run hs hk]
  simp only
  rw [bind_apply]
  unfold M.thenDelete namedToken
  simp only [Token.lines] at *
  have hfind : ∀ (a : List TLine), (∀ l ∈ a, l.isSuccessful = false) →
      a.find? TLine.isSuccessful = none := by
    intro a ha
    rw [List.find?_eq_none]
    intro l hl
    simp [ha l hl]
  unfold BlockRun at hblk
  cases hp : namedLines sk 0 ls cur with
  | none =>
    rw [hp] at hblk
    obtain ⟨l, lines, h1, h2⟩ := hblk
    rw [h1]
    simp only [List.nil_append, del_cons_self hs hk, Option.map_none, Found]
    cases l with
    | nil => exact .inl rfl
    | cons a l =>
      right
      simp only [List.isEmpty_cons, Bool.false_eq_true, if_false]
      rw [bind_apply]
      obtain ⟨ts, hts⟩ := hsk prev cur s
      rw [hts]
      refine ⟨_, rfl, ?_⟩
      simp only [Tree.isSuccessful, Tree.block, mkBlock, Block.successful, hfind _ h2,
        Option.isSome_none]
  | some x =>
    rw [hp] at hblk
    obtain ⟨l, ln, lines, h1, h2, h3, h4⟩ := hblk
    rw [h1]
    simp only [List.nil_append, del_cons_self hs hk, Option.map_some, Found]
    have hne : (l ++ [ln]).isEmpty = false := by cases l <;> rfl
    simp only [hne, Bool.false_eq_true, if_false]
    rw [bind_apply]
    obtain ⟨ts, hts⟩ := hsk prev x.2.2 s
    rw [hts]
    have hf : (l ++ [ln]).find? TLine.isSuccessful = some ln := by
      rw [List.find?_append, hfind _ h3]
      simp [h2]
    refine ⟨_, rfl, ?_, ?_, rfl⟩
    · simp [Tree.isSuccessful, Tree.block, mkBlock, Block.successful, hf]
    · simp only [Tree.shape, mkBlock, hf, Block.shape]
      exact h4

end

/-- The parser computes the reference interpretation, at every nesting depth that suffices for the
token and its channels. -/
theorem named_token {ctx : Ctx} {sk : Bytes → Bytes} {N : Nat} (hrev : ctx.reverse = false)
    (hsk : ∀ m, N ≤ m → SkipIs (token m) ctx.channels sk) (K : Nat) :
    ∀ n, N + K ≤ n → NamedRec n K ctx sk := by
  induction K with
  | zero =>
    intro n _ t path _ hD
    have := tokenD_pos t
    omega
  | succ K ih =>
    intro n hn
    obtain ⟨m, rfl⟩ : ∃ m, n = m + 1 := ⟨n - 1, by omega⟩
    exact namedRec_succ (ih m (by omega)) (hsk m (by omega)) hrev (by omega)

theorem named_execute {g : Grammar} {sk : Bytes → Bytes} {N : Nat}
    (hsk : ∀ m, N ≤ m → SkipIs (token m) g.channels sk) (hg : NamedTok [] g.root) (input : Bytes) :
    Agrees g input (namedToken sk g.root input) := by
  have h := named_token (ctx := ⟨none, g.channels, false⟩) rfl hsk (tokenD g.root) _ (Nat.le_refl _)
    g.root [] hg (Nat.le_refl _) [] input [] (keysIn_nil [])
  unfold Found at h
  unfold Agrees
  cases hp : namedToken sk g.root input with
  | none =>
    rw [hp] at h
    rcases h with h | ⟨t, h, hs⟩
    · exact .inl ⟨trivial, _, by unfold execute; rw [h]⟩
    · exact .inr ⟨t, ⟨trivial, _, by unfold execute; rw [h]⟩, hs⟩
  | some x =>
    rw [hp] at h
    obtain ⟨t, h, hs, h2, h3⟩ := h
    exact ⟨t, ⟨trivial, _, by unfold execute; rw [h]⟩, hs, h2, h3⟩

end Rodkina.Ast
