import Verif.TreeBuildersLemmas
import Verif.TreeRead
import Verif.AstLemmas2
import Verif.AstMono
/-! Trees made by the parser are well-formed; well-formed trees can be read. -/

namespace Rodkina.Ast
namespace TreeBuildSpec

open M

/-- Every tree a call returns is well-formed. -/
def RecWF (rec : Rec) : Prop := ∀ t ctx prev cur, Ens (fun _ => True) True (rec t ctx prev cur) TreeWF

section
variable {rec : Rec} (hrec : RecWF rec)
include hrec

theorem wf_channel (c : Channel) (prev cur : Bytes) :
    Ens (fun _ => True) True (channel rec c prev cur) (fun r => ∀ t, r = some t → TreeWF t) := by
  unfold channel
  refine Ens.bind (Ens.fresh trivial (hrec _ _ _ _)) (fun t ht => ?_)
  refine Ens.bind (V := fun _ => True) (ens_trivial _) (fun a _ => ?_)
  apply Ens.pure
  intro t' h
  split at h
  · cases h; exact ht
  · cases h

theorem wf_channelRound (chs : List Channel) (st : ChState) (hst : ∀ t ∈ st.list, TreeWF t) :
    Ens (fun _ => True) True (channelRound rec chs st) (fun st => ∀ t ∈ st.list, TreeWF t) := by
  induction chs generalizing st with
  | nil => exact Ens.pure hst
  | cons c cs ih =>
    unfold channelRound
    refine Ens.bind (Ens.attempt (wf_channel hrec c _ _)) (fun r hr => ?_)
    refine Ens.bind (V := fun st => ∀ t ∈ st.list, TreeWF t) ?_ (fun st' h => ih st' h)
    unfold channelApply
    split
    · rename_i t
      refine Ens.bind (V := fun _ => True) (ens_trivial _) (fun rem _ => ?_)
      refine Ens.ite (fun _ => Ens.pure hst) (fun _ => Ens.pure ?_)
      intro x hx
      simp only [List.mem_append, List.mem_singleton] at hx
      rcases hx with hx | rfl
      · exact hst x hx
      · exact hr _ rfl _ rfl
    · exact Ens.pure hst

theorem wf_channelLoop (chs : List Channel) (k : Nat) (st : ChState) (hst : ∀ t ∈ st.list, TreeWF t) :
    Ens (fun _ => True) True (channelLoop rec chs k st) (fun st => ∀ t ∈ st.list, TreeWF t) := by
  induction k generalizing st with
  | zero => exact Ens.oof
  | succ k ih =>
    unfold channelLoop
    refine Ens.bind (wf_channelRound hrec chs st hst) (fun st' h => ?_)
    exact Ens.ite (fun _ => Ens.pure h) (fun _ => ih st' h)

theorem wf_skipChannels (chs : List Channel) (prev cur : Bytes) :
    Ens (fun _ => True) True (skipChannels rec chs prev cur) (fun r => ∀ t ∈ r.1, TreeWF t) := by
  unfold skipChannels
  refine Ens.ite (fun _ => Ens.pure (by simp)) (fun _ => ?_)
  refine Ens.bind (V := fun r => ∀ x, r = some x → ∀ t ∈ x.1, TreeWF t) (Ens.attempt ?_) (fun r hr => Ens.pure ?_)
  · unfold channels
    refine Ens.bind (wf_channelLoop hrec chs _ _ (by simp)) (fun st h => ?_)
    exact Ens.ite (fun _ => Ens.fail) (fun _ => Ens.pure h)
  · cases r with
    | none => simp [orUnchanged]
    | some x => exact hr x rfl

theorem wf_elementValue (number : UInt8) (ctx : Ctx) (prev cur : Bytes) :
    Ens (fun _ => True) True (elementValue rec number ctx prev cur) (fun r => ∀ x, r = some x → TContentWF x.1) := by
  unfold elementValue
  refine Ens.bind (wf_skipChannels hrec _ _ _) (fun r hr => ?_)
  unfold matchByte
  split
  · exact Ens.fail
  · refine Ens.ite (fun _ => Ens.pure ?_) (fun _ => Ens.pure (by simp))
    intro x hx
    cases hx
    exact .value _ _ hr

theorem wf_elementContent (c : Content) (ctx : Ctx) (prev cur : Bytes) :
    Ens (fun _ => True) True (elementContent rec c ctx prev cur) (fun r => ∀ x, r = some x → TContentWF x.1) := by
  have key : ∀ t ctx prev cur, Ens (fun _ => True) True (do let t ← rec t ctx prev cur; pure (treeContent t))
      (fun r => ∀ x, r = some x → TContentWF x.1) := by
    intro t ctx prev cur
    refine Ens.bind (hrec _ _ _ _) (fun t ht => Ens.pure ?_)
    intro x hx
    cases hx
    exact .tree _ ht
  cases c with
  | external name g =>
    unfold elementContent external
    refine Ens.bind (V := TreeWF) ?_ (fun t ht => Ens.pure ?_)
    · refine Ens.bind (Ens.fresh trivial (hrec _ _ _ _)) (fun t ht => Ens.pure ?_)
      cases ht with
      | mk g b s r hb _ => exact .mk _ _ _ _ hb (by simp)
    · intro x hx
      cases hx
      exact .tree _ ht
  | token t => exact key _ _ _ _
  | everything n x e => exact key _ _ _ _
  | recursive n =>
    unfold elementContent
    refine Ens.bind (V := fun _ => True) (ens_trivial _) (fun tok _ => ?_)
    exact key _ _ _ _
  | value n b =>
    unfold elementContent
    exact Ens.ite (fun _ => Ens.fail) (fun _ => wf_elementValue hrec _ _ _ _)

theorem wf_element (c : Content) (ctx : Ctx) (prev cur : Bytes) :
    Ens (fun _ => True) True (element rec c ctx prev cur) (fun x => TContentWF x.1) := by
  unfold element
  refine Ens.ite (fun _ => Ens.fail) (fun _ => ?_)
  refine Ens.bind (wf_elementContent hrec c ctx prev cur) (fun r hr => ?_)
  unfold acceptContent
  cases r with
  | none => exact Ens.fail
  | some x => exact Ens.ite (fun _ => Ens.pure (hr x rfl)) (fun _ => Ens.fail)

theorem wf_elementLoop (c : Content) (max : Option Nat) (ctx : Ctx) (k : Nat) (st : ElState)
    (hst : ∀ x ∈ st.list, TContentWF x) :
    Ens (fun _ => True) True (elementLoop rec c max ctx k st) (fun st => ∀ x ∈ st.list, TContentWF x) := by
  induction k generalizing st with
  | zero => exact Ens.oof
  | succ k ih =>
    unfold elementLoop
    refine Ens.ite (fun _ => Ens.pure hst) (fun _ => ?_)
    refine Ens.ite (fun _ => Ens.pure hst) (fun _ => ?_)
    refine Ens.bind (Ens.attempt (wf_element hrec c ctx _ _)) (fun r hr => ?_)
    unfold elementNext
    cases r with
    | none => exact Ens.pure hst
    | some x =>
      apply ih
      intro y hy
      simp only [List.mem_append, List.mem_singleton] at hy
      rcases hy with hy | rfl
      · exact hst y hy
      · exact hr x rfl

theorem wf_lineLoop (ctx : Ctx) (prev0 : Bytes) (cs : List Container) (st : LnState) (hst : ∀ e ∈ st.list, TElementWF e) :
    Ens (fun _ => True) True (lineLoop rec ctx prev0 cs st) (fun st => ∀ e ∈ st.list, TElementWF e) := by
  induction cs generalizing st with
  | nil => exact Ens.pure hst
  | cons c cs ih =>
    unfold lineLoop
    refine Ens.bind (V := fun st => ∀ e ∈ st.list, TElementWF e) ?_ (fun st' h => ih st' h)
    unfold lineStep
    cases c with
    | compose cmp =>
      refine Ens.bind (V := fun _ => True) (ens_trivial _) (fun _ _ => Ens.fail)
    | element min max content =>
      refine Ens.bind (wf_elementLoop hrec content max ctx _ _ (by simp)) (fun r hr => ?_)
      refine Ens.ite (fun _ => Ens.fail) (fun _ => Ens.pure ?_)
      simp only
      split
      · exact hst
      · rename_i hne
        intro e he
        simp only [List.mem_append, List.mem_singleton] at he
        rcases he with he | rfl
        · exact hst e he
        · exact .mk _ _ (by simpa using hne) hr

theorem wf_line (idx : Nat) (g : GLine) (ctx : Ctx) (prev cur : Bytes) :
    Ens (fun _ => True) True (Ast.line rec idx g ctx prev cur) (fun x => TLineWF x.1) := by
  unfold Ast.line
  refine Ens.bind (wf_lineLoop hrec ctx prev _ _ (by simp)) (fun st h => Ens.pure ?_)
  exact .mk _ _ _ _ h

omit hrec in
theorem wf_escapeApply (st : RvState) (esc : Bytes) (r : Option (TLine × Bytes)) (hst : ∀ x ∈ st.list, TContentWF x) :
    Ens (fun _ => True) True (escapeApply st esc r) (fun st => ∀ x ∈ st.list, TContentWF x) := by
  unfold escapeApply
  cases r with
  | none => exact Ens.pure hst
  | some x =>
    refine Ens.ite (fun _ => ?_) (fun _ => Ens.pure hst)
    refine Ens.ite (fun _ => Ens.pure ?_) (fun _ => Ens.crash trivial)
    intro y hy
    simp only [List.mem_append, byteContents, List.mem_map] at hy
    rcases hy with hy | ⟨b, _, rfl⟩
    · exact hst y hy
    · exact .value _ _ (by simp)

omit hrec in
theorem wf_escapeStep (idx : Nat) (g : GLine) (ctx : Ctx) (st : RvState) (hst : ∀ x ∈ st.list, TContentWF x) :
    Ens (fun _ => True) True (escapeStep rec idx g ctx st) (fun st => ∀ x ∈ st.list, TContentWF x) := by
  unfold escapeStep
  split
  · exact Ens.pure hst
  · refine Ens.bind (V := fun _ => True) (ens_trivial _) (fun r _ => ?_)
    unfold escapeLine
    cases r with
    | none => exact Ens.pure hst
    | some t =>
      refine Ens.ite (fun _ => ?_) (fun _ => Ens.pure hst)
      refine Ens.bind (V := fun _ => True) (ens_trivial _) (fun r _ => ?_)
      exact wf_escapeApply st _ r hst

omit hrec in
theorem wf_reverseLoop (idx : Nat) (g : GLine) (ctx : Ctx) (k : Nat) (st : RvState) (hst : ∀ x ∈ st.list, TContentWF x) :
    Ens (fun _ => True) True (reverseLoop rec idx g ctx k st) (fun st => ∀ x ∈ st.list, TContentWF x) := by
  induction k generalizing st with
  | zero => exact Ens.oof
  | succ k ih =>
    unfold reverseLoop
    refine Ens.ite (fun _ => Ens.pure hst) (fun _ => ?_)
    refine Ens.bind (wf_escapeStep idx g ctx st hst) (fun st' h => ?_)
    refine Ens.bind (V := fun _ => True) (ens_trivial _) (fun r _ => ?_)
    unfold reverseNext
    cases r with
    | some _ => exact Ens.pure h
    | none =>
      simp only
      split
      · exact Ens.crash trivial
      · apply ih
        intro y hy
        simp only [List.mem_append, List.mem_singleton] at hy
        rcases hy with hy | rfl
        · exact h y hy
        · exact .value _ _ (by simp)

theorem wf_blockLoop (tok : Token) (ctx : Ctx) (prev cur : Bytes) (idx : Nat) (gs : List GLine) (acc : List TLine)
    (hacc : ∀ l ∈ acc, TLineWF l) :
    Ens (fun _ => True) True (blockLoop rec tok ctx prev cur idx gs acc) (fun r => ∀ l ∈ r.1, TLineWF l) := by
  induction gs generalizing idx acc with
  | nil => exact Ens.pure hacc
  | cons g gs ih =>
    have add : ∀ l, TLineWF l → ∀ x ∈ acc ++ [l], TLineWF x := by
      intro l hl x hx
      simp only [List.mem_append, List.mem_singleton] at hx
      rcases hx with hx | rfl
      · exact hacc x hx
      · exact hl
    unfold blockLoop
    refine Ens.bind (V := fun _ => True) (ens_trivial _) (fun skip _ => ?_)
    refine Ens.ite (fun _ => ih _ _ hacc) (fun _ => ?_)
    refine Ens.bind (V := fun _ => True) (ens_trivial _) (fun _ _ => ?_)
    refine Ens.ite (fun _ => ?_) (fun _ => ?_)
    · unfold reverseLine
      refine Ens.bind (wf_reverseLoop idx g ctx _ _ (by simp)) (fun st h => ?_)
      refine Ens.ite (fun _ => Ens.fail) (fun hne => Ens.pure ?_)
      refine add _ (.mk _ _ _ _ ?_)
      intro e he
      simp only [List.mem_singleton] at he
      subst he
      exact .mk _ _ (by simpa using hne) h
    · refine Ens.bind (Ens.attempt (wf_line hrec idx g ctx prev cur)) (fun r hr => ?_)
      unfold lineNext
      cases r with
      | none => exact ih _ _ hacc
      | some x =>
        have := add _ (hr x rfl)
        exact Ens.ite (fun _ => Ens.pure this) (fun _ => ih _ _ this)

theorem wf_tokenBody (tok : Token) (ctx : Ctx) (prev cur : Bytes) :
    Ens (fun _ => True) True (tokenBody rec tok ctx prev cur) TreeWF := by
  unfold tokenBody
  refine Ens.bind (V := fun _ => True) (ens_trivial _) (fun _ _ => ?_)
  refine Ens.bind (Ens.thenDelete (fun _ _ => trivial) (wf_blockLoop hrec tok ctx prev cur 0 _ [] (by simp))) (fun r hr => ?_)
  refine Ens.ite (fun _ => Ens.fail) (fun hne => ?_)
  refine Ens.bind (wf_skipChannels hrec _ _ _) (fun s hs => Ens.pure ?_)
  refine .mk _ _ _ _ ?_ hs
  exact .mk _ _ (by simpa using hne) hr (by simpa [Block.lines, Block.successful, mkBlock] using ((mkBlock_iff r.1 _).mp rfl).2)

end

theorem wf_token (n : Nat) : RecWF (token n) := by
  induction n with
  | zero => intro t ctx prev cur; exact Ens.oof
  | succ n ih => intro t ctx prev cur; exact wf_tokenBody ih t ctx prev cur

theorem parses_wf {g : Grammar} {input : Bytes} {t : Tree} (h : Parses g input (.ok t)) : TreeWF t := by
  obtain ⟨_, n, hn⟩ := h
  exact (wf_token n _ _ _ _ [] trivial).2.1 t hn

/-! ### Reading -/

theorem succeeds_elements {l : TLine} (h : Succeeds l) : l.elements ≠ [] := by
  rcases l with ⟨i, g, r, es⟩
  exact h.1

theorem First.holds {α : Type} {p : α → Prop} {l : List α} {x : α} (h : First p l (some x)) : x ∈ l ∧ p x := by
  obtain ⟨pre, post, rfl, hp, _⟩ := h
  exact ⟨by simp, hp⟩

/-- A line that can be read: it has elements, all well-formed. -/
def LineReadable (l : TLine) : Prop := l.elements ≠ [] ∧ ∀ e ∈ l.elements, TElementWF e

theorem BlockWF.readable {ls : List TLine} {l : TLine} (h : BlockWF (.mk ls (some l))) : LineReadable l := by
  cases h with
  | mk _ _ _ hl hf =>
    obtain ⟨hm, hs⟩ := hf.holds
    refine ⟨succeeds_elements hs, ?_⟩
    have := hl l hm
    cases this with
    | mk _ _ _ _ he => exact he

mutual
theorem readBytes_tree (ch : Bool) : (t : Tree) → TreeWF t → t.readBytes ch = .ok (t.bytes ch)
  | .mk g b s r, h => by
    cases h with
    | mk _ _ _ _ hb hs =>
      rw [Tree.readBytes, Tree.bytes]
      exact readBytes_block ch b hb _ _ (readTrees_ok ch s hs)
termination_by structural x => x

theorem readBytes_block (ch : Bool) : (b : Block) → BlockWF b → (x : Res Bytes) → (y : Bytes) → x = .ok y →
    b.readBytes ch x = .ok (b.bytesWith ch y)
  | .mk _ none, _, _, _, _ => rfl
  | .mk _ (some l), h, _, y, rfl => by
    rw [Block.readBytes, Block.bytesWith, readBytes_line ch l h.readable]
    cases ch <;> simp [pure, bind, Res.bind]
termination_by structural x => x

theorem readBytes_line (ch : Bool) : (l : TLine) → LineReadable l → l.readBytes ch = .ok (l.bytes ch)
  | .mk _ _ _ [], h => absurd rfl h.1
  | .mk _ _ _ (e :: es), h => by
    rw [TLine.readBytes, readBytes_element ch e (h.2 e List.mem_cons_self),
      readElements_ok ch es (fun x hx => h.2 x (List.mem_cons_of_mem _ hx)), TLine.bytes, elementsBytes]
    rfl
termination_by structural x => x

theorem readElements_ok (ch : Bool) : (es : List TElement) → (∀ e ∈ es, TElementWF e) →
    readElements ch es = .ok (elementsBytes ch es)
  | [], _ => rfl
  | e :: es, h => by
    rw [readElements, readBytes_element ch e (h e (by simp)), readElements_ok ch es (fun x hx => h x (by simp [hx])),
      elementsBytes]
    rfl
termination_by structural x => x

theorem readBytes_element (ch : Bool) : (e : TElement) → TElementWF e → e.readBytes ch = .ok (e.bytes ch)
  | .mk _ [], h => by cases h with | mk _ _ hne _ => exact absurd rfl hne
  | .mk _ (c :: cs), h => by
    cases h with
    | mk _ _ _ hc =>
      rw [TElement.readBytes, readBytes_content ch c (hc c (by simp)), readContents_ok ch cs (fun x hx => hc x (by simp [hx])),
        TElement.bytes, contentsBytes]
      rfl
termination_by structural x => x

theorem readContents_ok (ch : Bool) : (cs : List TContent) → (∀ c ∈ cs, TContentWF c) →
    readContents ch cs = .ok (contentsBytes ch cs)
  | [], _ => rfl
  | c :: cs, h => by
    rw [readContents, readBytes_content ch c (h c (by simp)), readContents_ok ch cs (fun x hx => h x (by simp [hx])),
      contentsBytes]
    rfl
termination_by structural x => x

theorem readBytes_content (ch : Bool) : (c : TContent) → TContentWF c → c.readBytes ch = .ok (c.bytes ch)
  | .value p b, h => by
    cases h with
    | value _ _ hp =>
      rw [TContent.readBytes, TContent.bytes, readTrees_ok ch p hp]
      cases ch <;> rfl
  | .tree t, h => by
    cases h with
    | tree _ ht =>
      rw [TContent.readBytes, TContent.bytes]
      exact readBytes_tree ch t ht
termination_by structural x => x

theorem readTrees_ok (ch : Bool) : (ts : List Tree) → (∀ t ∈ ts, TreeWF t) → readTrees ch ts = .ok (treesBytes ch ts)
  | [], _ => rfl
  | t :: ts, h => by
    rw [readTrees, readBytes_tree ch t (h t (by simp)), readTrees_ok ch ts (fun x hx => h x (by simp [hx])), treesBytes]
    rfl
termination_by structural x => x
end

/-- A result or an error. -/
def found (o : Option Fetched) : Res Fetched :=
  match o with
  | some f => .ok f
  | none => .err

mutual
theorem readFetch_tree (n : String) (i : Nat) : (t : Tree) → TreeWF t → t.readFetch n i = found (fetchTree n i t)
  | .mk g b s r, h => by
    cases h with
    | mk _ _ _ _ hb hs =>
      rw [Tree.readFetch, fetchTree]
      split
      · rfl
      · exact readFetch_block n i b hb
termination_by structural x => x

theorem readFetch_block (n : String) (i : Nat) : (b : Block) → BlockWF b → b.readFetch n i = found (fetchBlock n i b)
  | .mk _ none, _ => rfl
  | .mk _ (some l), h => by
    rw [Block.readFetch, fetchBlock]
    exact readFetch_line n i l h.readable
termination_by structural x => x

theorem readFetch_line (n : String) (i : Nat) : (l : TLine) → LineReadable l → l.readFetch n i = found (fetchLine n i l)
  | .mk _ _ _ [], h => absurd rfl h.1
  | .mk _ _ _ (e :: es), h => by
    have he := readFetch_element n i e (h.2 e List.mem_cons_self)
    have hes := fun k => readFetchElements_ok n i es (fun x hx => h.2 x (List.mem_cons_of_mem _ hx)) k
    rw [TLine.readFetch, fetchLine, fetchElements, he]
    cases fetchIn n i e with
    | none => exact hes 0
    | some f =>
      simp only [found]
      split
      · rfl
      · exact hes 1
termination_by structural x => x

theorem readFetchElements_ok (n : String) (i : Nat) : (es : List TElement) → (∀ e ∈ es, TElementWF e) → (k : Nat) →
    readFetchElements n i k es = found (fetchElements n i k es)
  | [], _, _ => rfl
  | e :: es, h, k => by
    have he := readFetch_element n i e (h e (by simp))
    have hes := fun k => readFetchElements_ok n i es (fun x hx => h x (by simp [hx])) k
    rw [readFetchElements, fetchElements, he]
    cases fetchIn n i e with
    | none => exact hes k
    | some f =>
      simp only [found]
      split
      · rfl
      · exact hes (k + 1)
termination_by structural x => x

theorem readFetch_element (n : String) (i : Nat) : (e : TElement) → TElementWF e → e.readFetch n i = found (fetchIn n i e)
  | .mk g cs, h => by
    cases h with
    | mk _ _ hne hc =>
      have hcs := readFetchContents_ok n i cs hc
      rw [TElement.readFetch, fetchIn]
      split
      · rfl
      · rw [if_neg (by simpa using hne)]
        exact hcs
termination_by structural x => x

theorem readFetchContents_ok (n : String) (i : Nat) : (cs : List TContent) → (∀ c ∈ cs, TContentWF c) →
    readFetchContents n i cs = found (fetchContents n i cs)
  | [], _ => rfl
  | c :: cs, h => by
    have hc := readFetch_content n i c (h c (by simp))
    have hcs := readFetchContents_ok n i cs (fun x hx => h x (by simp [hx]))
    rw [readFetchContents, fetchContents, hc]
    cases fetchContent n i c with
    | none => exact hcs
    | some f => rfl
termination_by structural x => x

theorem readFetch_content (n : String) (i : Nat) : (c : TContent) → TContentWF c → c.readFetch n i = found (fetchContent n i c)
  | .value p b, _ => rfl
  | .tree t, h => by
    cases h with
    | tree _ ht =>
      rw [TContent.readFetch, fetchContent]
      exact readFetch_tree n i t ht
termination_by structural x => x
end

end TreeBuildSpec
end Rodkina.Ast
