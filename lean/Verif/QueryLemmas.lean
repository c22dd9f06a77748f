import Verif.QuerySpec

/-!
# Lemmas about the query model: fuel, termination, refinement of the reference semantics
-/

namespace Rodkina.Query

open Rodkina.Ast (Tree TContent TElement TLine Out Container)
open QM

variable {W : Type}

/-! ## The monad -/

theorem pure_run {α : Type} (a : α) (p : Prev W) : (pure a : QM W α) p = .ok (a, p) := rfl

theorem bind_run {α β : Type} (m : QM W α) (f : α → QM W β) (p : Prev W) :
    (m >>= f) p = match m p with
      | .ok (a, p') => f a p'
      | .err => .err
      | .panic => .panic
      | .oof => .oof := rfl

/-! ## Monotonicity in the fuel -/

/-- `m'` gives the outcome of `m` whenever `m` does not run out of fuel. -/
def Le {α : Type} (m m' : QM W α) : Prop := ∀ p, m p = .oof ∨ m p = m' p

theorem Le.rfl {α : Type} {m : QM W α} : Le m m := fun _ => .inr (Eq.refl _)

theorem Le.bind {α β : Type} {m m' : QM W α} {f f' : α → QM W β} (h : Le m m')
    (hf : ∀ a, Le (f a) (f' a)) : Le (m >>= f) (m' >>= f') := by
  intro p
  rw [bind_run, bind_run]
  rcases h p with h | h
  · left; rw [h]
  · rw [← h]
    cases hm : m p with
    | ok x => exact hf x.1 x.2
    | err => exact .inr (Eq.refl _)
    | panic => exact .inr (Eq.refl _)
    | oof => exact .inl (Eq.refl _)

theorem le_fetchOne {rec rec' : Rec W} (h : ∀ q t, Le (rec q t) (rec' q t)) (c : TContent)
    (f : Fetcher W) : Le (fetchOne rec c f) (fetchOne rec' c f) := by
  unfold fetchOne
  cases c with
  | value => exact Le.rfl
  | tree t =>
    cases f with
    | query q => exact Le.bind (h q t) (fun _ => Le.rfl)
    | recursive name => exact Le.bind Le.rfl (fun q => Le.bind (h q t) (fun _ => Le.rfl))

theorem le_rowLoop {rec rec' : Rec W} (h : ∀ q t, Le (rec q t) (rec' q t)) (c : TContent)
    (fs : List (Fetcher W)) (row : List (Any W)) :
    Le (rowLoop rec c fs row) (rowLoop rec' c fs row) := by
  induction fs generalizing row with
  | nil => exact Le.rfl
  | cons f fs ih => exact Le.bind (le_fetchOne h c f) (fun _ => ih _)

theorem le_contentsLoop {rec rec' : Rec W} (h : ∀ q t, Le (rec q t) (rec' q t))
    (fs : List (Fetcher W)) (cs : List TContent) (out : List (Any W)) :
    Le (contentsLoop rec fs cs out) (contentsLoop rec' fs cs out) := by
  induction cs generalizing out with
  | nil => exact Le.rfl
  | cons c cs ih => exact Le.bind (le_rowLoop h c fs []) (fun _ => ih _)

theorem le_fetchBody {rec rec' : Rec W} (h : ∀ q t, Le (rec q t) (rec' q t)) (q : Query W) (t : Tree) :
    Le (fetchBody rec q t) (fetchBody rec' q t) := by
  unfold fetchBody
  refine Le.bind Le.rfl (fun cs => Le.bind Le.rfl (fun _ => Le.bind ?_ (fun _ => Le.rfl)))
  unfold insideInstances
  cases q.inside with
  | fn f => exact Le.rfl
  | fetchers fs => exact le_contentsLoop h fs cs []

theorem le_fetch (n : Nat) (q : Query W) (t : Tree) : Le (fetch n q t) (fetch (n + 1) q t) := by
  induction n generalizing q t with
  | zero => exact fun _ => .inl (Eq.refl _)
  | succ n ih => exact le_fetchBody ih q t

theorem fetch_mono {n m : Nat} (h : n ≤ m) (q : Query W) (t : Tree) (p : Prev W)
    (hn : fetch n q t p ≠ .oof) : fetch m q t p = fetch n q t p := by
  obtain ⟨k, rfl⟩ := Nat.exists_eq_add_of_le h
  clear h
  induction k with
  | zero => rfl
  | succ k ih =>
    rcases le_fetch (n + k) q t p with h | h
    · rw [ih] at h; exact absurd h hn
    · rw [← Nat.add_assoc, ← h, ih]

theorem execute_oof {n : Nat} {q : Query W} {t : Tree} :
    execute n q t = .oof ↔ fetch n q t [] = .oof := by
  unfold execute answer
  cases fetch n q t [] <;> simp

theorem execute_mono {n m : Nat} (h : n ≤ m) (q : Query W) (t : Tree)
    (hn : execute n q t ≠ .oof) : execute m q t = execute n q t := by
  unfold execute
  rw [fetch_mono h q t [] (fun hf => hn (execute_oof.mpr hf))]

theorem Executes.unique {q : Query W} {t : Tree} {o o' : Out (Answer W)} (h : Executes q t o)
    (h' : Executes q t o') : o = o' := by
  obtain ⟨h1, n, rfl⟩ := h
  obtain ⟨h2, m, rfl⟩ := h'
  rcases Nat.le_total n m with hl | hl
  · exact (execute_mono hl q t h1).symm
  · exact execute_mono hl q t h2

/-! ## Termination -/

/-- The contents found in a tree are parts of it. -/
theorem elementsLoop_part {tok : QToken} {es : List TElement} {n : Nat} {cs : List TContent}
    (h : elementsLoop tok es n = .ok cs) : ∀ c ∈ cs, ∃ e ∈ es, c ∈ e.contents := by
  have refine_part : ∀ {e : TElement} {cs : List TContent}, tokenRefine tok e.contents = .ok cs →
      ∀ c ∈ cs, c ∈ e.contents := by
    intro e cs h c hc
    unfold tokenRefine at h
    split at h
    · cases h; exact hc
    · split at h
      · cases h
      · rename_i c' hc'
        cases h
        rw [List.mem_singleton] at hc
        subst hc
        exact List.mem_of_getElem? hc'
  induction es generalizing n with
  | nil => cases h; simp
  | cons e es ih =>
    have later : ∀ {n : Nat}, elementsLoop tok es n = .ok cs →
        ∀ c ∈ cs, ∃ e' ∈ e :: es, c ∈ e'.contents := by
      intro n h c hc
      obtain ⟨e', he', hm⟩ := ih h c hc
      exact ⟨e', List.mem_cons_of_mem _ he', hm⟩
    unfold elementsLoop at h
    split at h
    · split at h
      · exact later h
      · split at h
        · exact fun c hc => ⟨e, List.mem_cons_self .., refine_part h c hc⟩
        · cases h
    · split at h
      · exact later h
      · split at h
        · exact fun c hc => ⟨e, List.mem_cons_self .., refine_part h c hc⟩
        · exact later h

theorem queryContents_part {tok : QToken} {t : Tree} {cs : List TContent}
    (h : queryContents tok t = .ok cs) :
    ∀ c ∈ cs, ∃ l, t.block.successful = some l ∧ ∃ e ∈ l.elements, c ∈ e.contents := by
  unfold queryContents at h
  split at h
  · cases h
  · split at h
    · cases h
    · rename_i l hl
      split at h
      · cases h
      · intro c hc
        exact ⟨l, hl, elementsLoop_part h c hc⟩

theorem queryContents_size {tok : QToken} {t : Tree} {cs : List TContent}
    (h : queryContents tok t = .ok cs) {t' : Tree} (hc : TContent.tree t' ∈ cs) :
    sizeOf t' < sizeOf t := by
  obtain ⟨l, hl, e, he, hm⟩ := queryContents_part h _ hc
  have h1 := sizeOf_element_lt hl he
  have h2 := sizeOf_content_lt hm
  simp only [TContent.tree.sizeOf_spec] at h2
  omega

/-- Does not run out of fuel. -/
def Ends {α : Type} (m : QM W α) : Prop := ∀ p, m p ≠ .oof

theorem Ends.bind {α β : Type} {m : QM W α} {f : α → QM W β} (h : Ends m) (hf : ∀ a, Ends (f a)) :
    Ends (m >>= f) := by
  intro p
  rw [bind_run]
  cases hm : m p with
  | ok x => exact hf x.1 x.2
  | err => simp
  | panic => simp
  | oof => exact absurd hm (h p)

theorem ends_pure {α : Type} (a : α) : Ends (pure a : QM W α) := fun p => by simp [pure_run]

theorem ends_lift {α : Type} (r : Res α) : Ends (lift r : QM W α) := fun p => by
  cases r <;> simp [lift]

theorem ends_fetch (n : Nat) (q : Query W) (t : Tree) (hn : sizeOf t < n) : Ends (fetch n q t) := by
  induction n generalizing q t with
  | zero => omega
  | succ n ih =>
    have hone : ∀ c : TContent, (∀ t', c = .tree t' → sizeOf t' < n) → ∀ f : Fetcher W,
        Ends (fetchOne (fetch n) c f) := by
      intro c hc f
      unfold fetchOne
      cases c with
      | value => exact ends_pure _
      | tree t' =>
        cases f with
        | query q' => exact Ends.bind (ih q' t' (hc t' rfl)) (fun _ => ends_pure _)
        | recursive name =>
          refine Ends.bind ?_ (fun q' => Ends.bind (ih q' t' (hc t' rfl)) (fun _ => ends_pure _))
          intro p
          unfold lookup
          cases p.lookup name <;> simp
    have hrow : ∀ c : TContent, (∀ t', c = .tree t' → sizeOf t' < n) →
        ∀ (fs : List (Fetcher W)) (row : List (Any W)), Ends (rowLoop (fetch n) c fs row) := by
      intro c hc fs
      induction fs with
      | nil => intro row; exact ends_pure _
      | cons f fs ihf => intro row; exact Ends.bind (hone c hc f) (fun _ => ihf _)
    have hloop : ∀ (fs : List (Fetcher W)) (cs : List TContent),
        (∀ t', TContent.tree t' ∈ cs → sizeOf t' < n) → ∀ out : List (Any W),
        Ends (contentsLoop (fetch n) fs cs out) := by
      intro fs cs
      induction cs with
      | nil => intro _ out; exact ends_pure _
      | cons c cs ihc =>
        intro hc out
        refine Ends.bind (hrow c (fun t' ht => hc t' (by simp [ht])) fs []) (fun _ => ihc ?_ _)
        exact fun t' ht => hc t' (List.mem_cons_of_mem _ ht)
    intro p
    show fetchBody (fetch n) q t p ≠ .oof
    unfold fetchBody
    rw [bind_run]
    cases hq : queryContents q.token t with
    | err => simp [lift]
    | panic => simp [lift]
    | ok cs =>
      have hsz : ∀ t', TContent.tree t' ∈ cs → sizeOf t' < n := by
        intro t' ht
        have := queryContents_size hq ht
        omega
      simp only [lift]
      refine Ends.bind (fun p => by simp [remember]) (fun _ => Ends.bind ?_ (fun _ => ends_lift _)) p
      unfold insideInstances
      cases q.inside with
      | fn f => exact ends_lift _
      | fetchers fs => exact hloop fs cs hsz []

/-! ## Selection -/

theorem elementsLoop_selection (tok : QToken) (es : List TElement) (k : Nat) (hk : k ≤ tok.index)
    (h : (∀ e ∈ es, e.grammar.isSome) ∨ (tok.elementName = tok.reverseName → tok.index = 0)) :
    elementsLoop tok es k =
      match (es.filter (fun e => answersTo tok e))[tok.index - k]? with
      | none => .ok []
      | some e => tokenRefine tok e.contents := by
  induction es generalizing k with
  | nil => simp [elementsLoop]
  | cons e es ih =>
    have h' : (∀ e ∈ es, e.grammar.isSome) ∨ (tok.elementName = tok.reverseName → tok.index = 0) :=
      h.imp (fun h e he => h e (List.mem_cons_of_mem _ he)) id
    unfold elementsLoop
    cases hg : e.grammar with
    | none =>
      simp only
      by_cases hn : tok.elementName = tok.reverseName
      · have h0 : tok.index = 0 := by
          rcases h with h | h
          · have := h e (List.mem_cons_self ..)
            rw [hg] at this; simp at this
          · exact h hn
        have ha : answersTo tok e := by unfold answersTo; rw [hg]; exact hn.symm
        have hk0 : k = 0 := by omega
        subst hk0
        rw [if_neg (by simpa using hn), if_pos h0, List.filter_cons_of_pos (by simpa using ha), h0]
        rfl
      · have ha : ¬ answersTo tok e := by
          unfold answersTo; rw [hg]; exact fun e => hn e.symm
        rw [if_pos hn, ih k hk h', List.filter_cons_of_neg (by simpa using ha)]
    | some g =>
      simp only
      by_cases hn : g.name = tok.elementName
      · have ha : answersTo tok e := by unfold answersTo; rw [hg]; exact hn
        rw [if_neg (by simpa using hn), List.filter_cons_of_pos (by simpa using ha)]
        by_cases hi : tok.index = k
        · rw [if_pos hi, hi, Nat.sub_self]; rfl
        · rw [if_neg hi, ih (k + 1) (by omega) h']
          have : tok.index - k = (tok.index - (k + 1)) + 1 := by omega
          rw [this, List.getElem?_cons_succ]
      · have ha : ¬ answersTo tok e := by unfold answersTo; rw [hg]; exact hn
        rw [if_pos hn, ih k hk h', List.filter_cons_of_neg (by simpa using ha)]

theorem queryContents_eq {tok : QToken} {t : Tree} (h : Fine tok t) :
    queryContents tok t = selection tok t := by
  unfold queryContents selection
  by_cases hn : t.grammar.name = tok.name
  · rw [if_neg (by simpa using hn.symm), if_pos hn]
    cases hl : t.block.successful with
    | none => rfl
    | some l =>
      obtain ⟨h1, h2⟩ := h l hl
      simp only
      rw [if_neg (by simpa using h1), elementsLoop_selection tok _ 0 (Nat.zero_le _) h2, Nat.sub_zero]
      cases (l.elements.filter (fun e => answersTo tok e))[tok.index]? with
      | none => rfl
      | some e => rfl
  · rw [if_pos (fun e => hn e.symm), if_neg hn]

/-! ## Refinement -/

/-- One fetcher on one content in the reference semantics. -/
def evalOne (env : List (Query W)) (q : Query W) (c : TContent) (f : Fetcher W) : Res (List (Any W)) :=
  match c, f with
  | .value _ _, _ => .ok []
  | .tree t', .query q' => keepValid (eval (q :: env) q' t')
  | .tree t', .recursive name => match scope (q :: env) name with
    | [] => .err
    | q' :: env' => keepValid (eval env' q' t')

/-- The function or the fetchers of a query in the reference semantics. -/
def evalInside (env : List (Query W)) (q : Query W) (cs : List TContent) : Res (List (Any W)) :=
  match q.inside with
  | .fn f => contentFn f cs
  | .fetchers fs => concatM (fun c => concatM (evalOne env q c) fs) cs

theorem concatM_attach {α β : Type} (l : List α) (f : α → Res (List β)) :
    concatM (fun x : {x // x ∈ l} => f x.1) l.attach = concatM f l := by
  have : (l.attach.map Subtype.val).mapM f = l.attach.mapM (fun x => f x.1) := by
    rw [List.mapM_map]
    rfl
  unfold concatM
  rw [← this, List.attach_map_subtype_val]

theorem concatM_cons {α β : Type} (f : α → Res (List β)) (x : α) (l : List α) :
    concatM f (x :: l) = f x >>= fun r => concatM f l >>= fun r' => .ok (r ++ r') := by
  unfold concatM
  rw [List.mapM_cons]
  cases f x with
  | ok r => cases List.mapM f l <;> rfl
  | err => rfl
  | panic => rfl

theorem contentFn_eq (f : ContentFn W) (cs : List TContent) : applyContentFn f cs = contentFn f cs := by
  cases f <;> cases cs <;> rfl

theorem queryFn_eq (f : QueryFn W) (l : List (Any W)) : applyQueryFn f l = queryFn f l := by
  cases f <;> cases l <;> rfl

theorem eval_eq (env : List (Query W)) (q : Query W) (t : Tree) :
    eval env q t =
      selection q.token t >>= fun cs => evalInside env q cs >>= fun list => queryFn q.fn list := by
  rw [eval]
  split
  · rename_i h; rw [h]; rfl
  · rename_i h; rw [h]; rfl
  · rename_i cs h
    rw [h, Res.bind_ok]
    simp only [queryFn_eq]
    congr 1
    unfold evalInside
    cases q.inside with
    | fn f => exact contentFn_eq f cs
    | fetchers fs =>
      simp only
      rw [← concatM_attach cs]
      congr 1
      funext c
      congr 1
      funext f
      rcases c with ⟨c, hc⟩
      cases c <;> cases f <;> rfl

/-- A computation refines a reference result: same outcome; entries of the map
for the names in `K` stay as they are; the map
keeps its invariant. -/
def Refines {α : Type} (K : String → Prop) (I : Prev W → Prop) (m : QM W α) (r : Res α) (p : Prev W) : Prop :=
  match r with
  | .ok a => ∃ p', m p = .ok (a, p') ∧ I p' ∧ ∀ k x, K k → p.lookup k = some x → p'.lookup k = some x
  | .err => m p = .err
  | .panic => m p = .panic

theorem Refines.bind {α β : Type} {K : String → Prop} {I : Prev W → Prop} {m : QM W α} {f : α → QM W β} {r : Res α}
    {g : α → Res β} {p : Prev W} (h : Refines K I m r p)
    (hf : ∀ a p', r = .ok a → I p' → (∀ k x, K k → p.lookup k = some x → p'.lookup k = some x) →
      Refines K I (f a) (g a) p') : Refines K I (m >>= f) (r >>= g) p := by
  cases r with
  | ok a =>
    obtain ⟨p', h1, h2, h3⟩ := h
    have := hf a p' rfl h2 h3
    rw [Res.bind_ok]
    unfold Refines at this ⊢
    cases hg : g a with
    | ok b =>
      rw [hg] at this
      obtain ⟨p'', h4, h5, h6⟩ := this
      exact ⟨p'', by rw [bind_run, h1]; exact h4, h5, fun k x hK hk => h6 k x hK (h3 k x hK hk)⟩
    | err => rw [hg] at this; simp only at this ⊢; rw [bind_run, h1]; exact this
    | panic => rw [hg] at this; simp only at this ⊢; rw [bind_run, h1]; exact this
  | err =>
    have h' : m p = .err := h
    show (m >>= f) p = .err
    rw [bind_run, h']
  | panic =>
    have h' : m p = .panic := h
    show (m >>= f) p = .panic
    rw [bind_run, h']

theorem refines_pure {α : Type} {K : String → Prop} {I : Prev W → Prop} {a : α} {p : Prev W} (hp : I p) :
    Refines K I (pure a) (.ok a) p := ⟨p, rfl, hp, fun _ _ _ h => h⟩

theorem refines_lift {α : Type} {K : String → Prop} {I : Prev W → Prop} {r : Res α} {p : Prev W} (hp : I p) :
    Refines K I (lift r) r p := by
  cases r with
  | ok a => exact ⟨p, rfl, hp, fun _ _ _ h => h⟩
  | err => rfl
  | panic => rfl

theorem scope_path {root : Query W} {env : List (Query W)} (h : Path root env) {name : String}
    {x : Query W} (hx : x ∈ env) (hn : x.name = name) :
    ∃ q env', scope env name = q :: env' ∧ Path root (q :: env') ∧ q.name = name ∧
      (∀ y ∈ q :: env', y ∈ env) := by
  induction h with
  | root =>
    rw [List.mem_singleton] at hx
    subst hx
    exact ⟨x, [], by simp [scope, hn], .root, hn, by simp⟩
  | @child q q' env fs hp hi hf ih =>
    by_cases hq : q'.name = name
    · exact ⟨q', q :: env, by simp [scope, hq], .child hp hi hf, hq, fun _ h => h⟩
    · have hx' : x ∈ q :: env := by
        rcases List.mem_cons.mp hx with rfl | h
        · exact absurd hn hq
        · exact h
      obtain ⟨a, b, h1, h2, h3, h4⟩ := ih hx'
      refine ⟨a, b, ?_, h2, h3, fun y hy => List.mem_cons_of_mem _ (h4 y hy)⟩
      unfold scope at h1 ⊢
      rw [List.dropWhile_cons_of_pos (by simpa using hq), h1]

/-- The map only holds sub-queries under their own names. -/
def Known (root : Query W) (p : Prev W) : Prop :=
  ∀ k x, p.lookup k = some x → x.name = k ∧ ∃ env, Path root (x :: env)

theorem refines_concat {α β : Type} {K : String → Prop} {I : Prev W → Prop} (J : Prev W → Prop)
    (hJ : ∀ p p', J p → (∀ k x, K k → p.lookup k = some x → p'.lookup k = some x) → J p')
    (m : α → QM W (List β)) (f : α → Res (List β))
    (loop : List α → List β → QM W (List β))
    (hnil : ∀ out, loop [] out = pure out)
    (hcons : ∀ a l out, loop (a :: l) out = m a >>= fun r => loop l (out ++ r))
    (l : List α) (h : ∀ a ∈ l, ∀ p, I p → J p → Refines K I (m a) (f a) p)
    (out : List β) (p : Prev W) (hp : I p) (hj : J p) :
    Refines K I (loop l out) (concatM f l >>= fun r => .ok (out ++ r)) p := by
  induction l generalizing out p with
  | nil =>
    rw [hnil]
    have : (concatM f [] >>= fun r => Res.ok (out ++ r)) = .ok out := by simp [concatM]
    rw [this]
    exact refines_pure hp
  | cons a l ih =>
    rw [hcons, concatM_cons]
    have : ((f a >>= fun r => concatM f l >>= fun r' => Res.ok (r ++ r')) >>= fun r => Res.ok (out ++ r)) =
        f a >>= fun r => (concatM f l >>= fun r' => Res.ok ((out ++ r) ++ r')) := by
      cases f a with
      | ok r => cases concatM f l <;> simp
      | err => rfl
      | panic => rfl
    rw [this]
    refine Refines.bind (h a (List.mem_cons_self ..) p hp hj) ?_
    intro r p' _ hp' hext
    exact ih (fun a ha => h a (List.mem_cons_of_mem _ ha)) _ _ hp' (hJ p p' hj hext)

theorem refines_fetch (root : Query W) (hs : Scoped root) (ho : OnePerName root) (top : Tree)
    (hfine : ∀ t', Part top t' → ∀ q env, Path root (q :: env) → Fine q.token t')
    (n : Nat) (q : Query W) (env : List (Query W)) (t : Tree) (p : Prev W)
    (hn : sizeOf t < n) (hpath : Path root (q :: env)) (ht : Part top t) (hp : Known root p)
    (henv : ∀ x ∈ env, Referenced root x.name → p.lookup x.name = some x) :
    Refines (Referenced root) (Known root) (fetch n q t) (eval env q t) p := by
  induction n generalizing q env t p with
  | zero => omega
  | succ n ih =>
    rw [eval_eq]
    show Refines (Referenced root) (Known root) (fetchBody (fetch n) q t) _ p
    unfold fetchBody
    rw [queryContents_eq (hfine t ht q env hpath)]
    refine Refines.bind (refines_lift hp) ?_
    intro cs p0 hcs hp0 hext0
    have hrem : Refines (Referenced root) (Known root) (remember q) (.ok ()) p0 := by
      refine ⟨(q.name, q) :: p0, rfl, ?_, ?_⟩
      · intro k x hx
        rw [List.lookup_cons] at hx
        by_cases hk : k == q.name
        · simp only [hk, if_true] at hx
          cases hx
          exact ⟨(by simpa using hk : k = q.name).symm, env, hpath⟩
        · simp only [Bool.not_eq_true] at hk
          rw [hk] at hx
          exact hp0 k x hx
      · intro k x hK hx
        rw [List.lookup_cons]
        by_cases hk : k == q.name
        · simp only [hk]
          obtain ⟨h1, env', h2⟩ := hp0 k x hx
          have := ho x env' q env h2 hpath (by rw [h1]; simpa using hk) (by rw [h1]; exact hK)
          rw [this]
        · simp only [Bool.not_eq_true] at hk
          rw [hk]
          exact hx
    have key : ∀ p1, Known root p1 → (∀ x ∈ q :: env, Referenced root x.name → p1.lookup x.name = some x) →
        Refines (Referenced root) (Known root) (insideInstances (fetch n) q.inside cs >>= fun list => lift (queryFn q.fn list))
          (evalInside env q cs >>= fun list => queryFn q.fn list) p1 := by
      intro p1 hp1 henv1
      refine Refines.bind ?_ (fun list p' _ hp' _ => refines_lift hp')
      unfold insideInstances evalInside
      cases hi : q.inside with
      | fn f => exact refines_lift hp1
      | fetchers fs =>
        have hJ : ∀ p p' : Prev W, (∀ x ∈ q :: env, Referenced root x.name → p.lookup x.name = some x) →
            (∀ k x, Referenced root k → p.lookup k = some x → p'.lookup k = some x) →
            (∀ x ∈ q :: env, Referenced root x.name → p'.lookup x.name = some x) := fun p p' h1 h2 x hx hK => h2 _ _ hK (h1 x hx hK)
        have hone : ∀ c ∈ cs, ∀ f ∈ fs, ∀ p, Known root p →
            (∀ x ∈ q :: env, Referenced root x.name → p.lookup x.name = some x) →
            Refines (Referenced root) (Known root) (fetchOne (fetch n) c f) (evalOne env q c f) p := by
          intro c hc f hf p hp he
          cases c with
          | value a b => exact refines_pure hp
          | tree t' =>
            have hsz : sizeOf t' < n := by
              have := selection_size hcs hc
              omega
            have hpart : Part top t' := by
              obtain ⟨l, hl, e, he, hm⟩ := selection_part hcs _ hc
              exact .step ht hl he hm
            cases f with
            | query q' =>
              refine Refines.bind (ih q' (q :: env) t' p hsz (.child hpath hi hf) hpart hp he) ?_
              intro r p' _ hp' _
              exact refines_pure hp'
            | recursive name =>
              obtain ⟨x, hx, hxn⟩ := hs q env fs name hpath hi hf
              obtain ⟨q', env', h1, h2, h3, h4⟩ := scope_path hpath hx hxn
              simp only [evalOne, h1]
              have hlook : lookup name p = .ok (q', p) := by
                have := he q' (h4 q' (List.mem_cons_self ..)) (by rw [h3]; exact ⟨q, env, fs, hpath, hi, hf⟩)
                rw [h3] at this
                simp [lookup, this]
              have : fetchOne (fetch n) (.tree t') (.recursive name) p =
                  (fetch n q' t' >>= fun r => pure (if r.2 then [r.1] else [])) p := by
                show (lookup name >>= fun q' => _) p = _
                rw [bind_run, hlook]
              have hr : Refines (Referenced root) (Known root) (fetch n q' t' >>= fun r => pure (if r.2 then [r.1] else []))
                  (keepValid (eval env' q' t')) p := by
                refine Refines.bind (ih q' env' t' p hsz h2 hpart hp ?_) ?_
                · exact fun y hy hK => he y (h4 y (List.mem_cons_of_mem _ hy)) hK
                · intro r p' _ hp' _
                  exact refines_pure hp'
              unfold Refines at hr ⊢
              rw [this]
              exact hr
        have hrow : ∀ c ∈ cs, ∀ p, Known root p → (∀ x ∈ q :: env, Referenced root x.name → p.lookup x.name = some x) →
            Refines (Referenced root) (Known root) (rowLoop (fetch n) c fs []) (concatM (evalOne env q c) fs) p := by
          intro c hc p hp he
          have := refines_concat (K := Referenced root) (I := Known root) _ hJ (fetchOne (fetch n) c) (evalOne env q c)
            (rowLoop (fetch n) c) (fun _ => rfl) (fun _ _ _ => rfl) fs (hone c hc) [] p hp he
          have heq : (concatM (evalOne env q c) fs >>= fun r => Res.ok ([] ++ r)) =
              concatM (evalOne env q c) fs := by
            cases concatM (evalOne env q c) fs <;> rfl
          rwa [heq] at this
        have := refines_concat (K := Referenced root) (I := Known root) _ hJ (fun c => rowLoop (fetch n) c fs [])
          (fun c => concatM (evalOne env q c) fs) (contentsLoop (fetch n) fs) (fun _ => rfl)
          (fun _ _ _ => rfl) cs hrow [] p1 hp1 henv1
        have heq : (concatM (fun c => concatM (evalOne env q c) fs) cs >>= fun r => Res.ok ([] ++ r)) =
            concatM (fun c => concatM (evalOne env q c) fs) cs := by
          cases concatM (fun c => concatM (evalOne env q c) fs) cs <;> rfl
        rwa [heq] at this
    obtain ⟨p1, hr1, hp1, hext1⟩ := hrem
    have hp1e : p1 = (q.name, q) :: p0 := by
      have : (Out.ok ((), p1) : Out (Unit × Prev W)) = .ok ((), (q.name, q) :: p0) := hr1.symm
      simpa using this
    have hk := key p1 hp1 (by
      intro x hx hK
      rcases List.mem_cons.mp hx with rfl | hx
      · rw [hp1e]; simp
      · exact hext1 _ _ hK (hext0 _ _ hK (henv x hx hK)))
    have hrun : (remember q >>= fun _ => insideInstances (fetch n) q.inside cs >>= fun list =>
        lift (queryFn q.fn list)) p0 =
        (insideInstances (fetch n) q.inside cs >>= fun list => lift (queryFn q.fn list)) p1 := by
      rw [bind_run, hr1]
    unfold Refines at hk ⊢
    rw [hrun]
    cases hr : (evalInside env q cs >>= fun list => queryFn q.fn list) with
    | ok a =>
      rw [hr] at hk
      obtain ⟨p', h1, h2, h3⟩ := hk
      exact ⟨p', h1, h2, fun k x hK hx => h3 k x hK (hext1 k x hK hx)⟩
    | err => rw [hr] at hk; exact hk
    | panic => rw [hr] at hk; exact hk

/-! ## No panics -/

/-- No panic, and the map keeps its invariant. -/
def Calm {α : Type} (I : Prev W → Prop) (m : QM W α) : Prop :=
  ∀ p, I p → m p ≠ .panic ∧ ∀ a p', m p = .ok (a, p') → I p'

theorem Calm.bind {α β : Type} {I : Prev W → Prop} {m : QM W α} {f : α → QM W β} (h : Calm I m)
    (hf : ∀ a, Calm I (f a)) : Calm I (m >>= f) := by
  intro p hp
  obtain ⟨h1, h2⟩ := h p hp
  rw [bind_run]
  cases hm : m p with
  | ok x => exact hf x.1 x.2 (h2 x.1 x.2 hm)
  | err => simp
  | panic => exact absurd hm h1
  | oof => simp

theorem calm_pure {α : Type} {I : Prev W → Prop} (a : α) : Calm I (pure a : QM W α) := by
  intro p hp
  refine ⟨by simp [pure_run], fun a' p' h => ?_⟩
  simp only [pure_run, Out.ok.injEq, Prod.mk.injEq] at h
  exact h.2 ▸ hp

theorem calm_lift {α : Type} {I : Prev W → Prop} {r : Res α} (hr : r ≠ .panic) :
    Calm I (lift r : QM W α) := by
  intro p hp
  cases r with
  | ok a =>
    refine ⟨by simp [lift], fun a' p' h => ?_⟩
    simp only [lift, Out.ok.injEq, Prod.mk.injEq] at h
    exact h.2 ▸ hp
  | err => simp [lift]
  | panic => exact absurd rfl hr

theorem calm_lift_bind {α β : Type} {I : Prev W → Prop} {r : Res α} {f : α → QM W β}
    (hr : r ≠ .panic) (hf : ∀ a, r = .ok a → Calm I (f a)) : Calm I (lift r >>= f) := by
  intro p hp
  cases r with
  | ok a => exact hf a rfl p hp
  | err => simp [bind_run, lift]
  | panic => exact absurd rfl hr

theorem selection_no_panic (tok : QToken) (t : Tree) : selection tok t ≠ .panic := by
  unfold selection
  repeat' split
  all_goals simp

theorem calm_fetch (root : Query W) (top : Tree)
    (hfine : ∀ t', Part top t' → ∀ q env, Path root (q :: env) → Fine q.token t')
    (hcalm : ∀ q env, Path root (q :: env) → CalmFunctions q)
    (n : Nat) (q : Query W) (env : List (Query W)) (t : Tree) (hpath : Path root (q :: env))
    (ht : Part top t) : Calm (Known root) (fetch n q t) := by
  induction n generalizing q env t with
  | zero => exact fun p _ => by simp [fetch, oof]
  | succ n ih =>
    show Calm (Known root) (fetchBody (fetch n) q t)
    obtain ⟨hc1, hc2⟩ := hcalm q env hpath
    have hqf : ∀ list : List (Any W), queryFn q.fn list ≠ .panic := by
      intro list
      cases list with
      | nil => simp [queryFn]
      | cons x xs =>
        cases hf : q.fn with
        | single f => rw [hf] at hc2; exact hc2 x
        | multi f => rw [hf] at hc2; exact hc2 (x :: xs)
    unfold fetchBody
    rw [queryContents_eq (hfine t ht q env hpath)]
    refine calm_lift_bind (selection_no_panic _ _) (fun cs hcs => Calm.bind ?_ (fun _ => Calm.bind ?_ (fun list => calm_lift (hqf list))))
    · intro p hp
      refine ⟨by simp [remember], fun a p' h => ?_⟩
      simp only [remember, Out.ok.injEq, Prod.mk.injEq] at h
      rw [← h.2]
      intro k x hx
      rw [List.lookup_cons] at hx
      by_cases hk : k == q.name
      · simp only [hk] at hx
        cases hx
        exact ⟨(by simpa using hk : k = q.name).symm, env, hpath⟩
      · simp only [Bool.not_eq_true] at hk
        rw [hk] at hx
        exact hp k x hx
    · unfold insideInstances
      cases hi : q.inside with
      | fn f =>
        rw [hi] at hc1
        cases f with
        | single f => exact hc1.elim
        | multi f => exact calm_lift (hc1 cs)
      | fetchers fs =>
        have hone : ∀ c ∈ cs, ∀ f ∈ fs, Calm (Known root) (fetchOne (fetch n) c f) := by
          intro c hc f hf
          cases c with
          | value a b => exact calm_pure _
          | tree t' =>
            have hpart : Part top t' := by
              obtain ⟨l, hl, e, he, hm⟩ := selection_part hcs _ hc
              exact .step ht hl he hm
            cases f with
            | query q' =>
              exact Calm.bind (ih q' (q :: env) t' (.child hpath hi hf) hpart) (fun _ => calm_pure _)
            | recursive name =>
              intro p hp
              show ((lookup name >>= fun q' => fetch n q' t' >>= fun r => pure (if r.2 then [r.1] else []))) p ≠ _ ∧ ∀ a p',
                ((lookup name >>= fun q' => fetch n q' t' >>= fun r => pure (if r.2 then [r.1] else []))) p = _ → _
              rw [bind_run]
              unfold lookup
              cases hl : p.lookup name with
              | none => simp
              | some q' =>
                obtain ⟨_, env', hq'⟩ := hp name q' hl
                exact Calm.bind (ih q' env' t' hq' hpart) (fun _ => calm_pure _) p hp
        have hrow : ∀ c ∈ cs, Calm (Known root) (rowLoop (fetch n) c fs []) := by
          intro c hc
          have : ∀ l : List (Fetcher W), (∀ f ∈ l, f ∈ fs) → ∀ row,
              Calm (Known root) (rowLoop (fetch n) c l row) := by
            intro l
            induction l with
            | nil => intro _ row; exact calm_pure _
            | cons f l ihl =>
              intro hsub row
              exact Calm.bind (hone c hc f (hsub f (List.mem_cons_self ..)))
                (fun _ => ihl (fun f hf => hsub f (List.mem_cons_of_mem _ hf)) _)
          exact this fs (fun _ h => h) []
        have : ∀ l : List TContent, (∀ c ∈ l, c ∈ cs) → ∀ out,
            Calm (Known root) (contentsLoop (fetch n) fs l out) := by
          intro l
          induction l with
          | nil => intro _ out; exact calm_pure _
          | cons c l ihl =>
            intro hsub out
            exact Calm.bind (hrow c (hsub c (List.mem_cons_self ..)))
              (fun _ => ihl (fun c hc => hsub c (List.mem_cons_of_mem _ hc)) _)
        exact this cs (fun _ h => h) []

/-! ## Success needs every fetcher to succeed -/

theorem rowLoop_ok {rec : Rec W} {c : TContent} {fs : List (Fetcher W)} {row r : List (Any W)}
    {p p' : Prev W} (h : rowLoop rec c fs row p = .ok (r, p')) :
    ∀ f ∈ fs, ∃ p1 r1 p2, fetchOne rec c f p1 = .ok (r1, p2) := by
  induction fs generalizing row p with
  | nil => simp
  | cons f fs ih =>
    rw [rowLoop, bind_run] at h
    cases hf : fetchOne rec c f p with
    | ok x =>
      rw [hf] at h
      intro g hg
      rcases List.mem_cons.mp hg with rfl | hg
      · exact ⟨p, x.1, x.2, hf⟩
      · exact ih h g hg
    | err => rw [hf] at h; cases h
    | panic => rw [hf] at h; cases h
    | oof => rw [hf] at h; cases h

theorem contentsLoop_ok {rec : Rec W} {fs : List (Fetcher W)} {cs : List TContent} {out r : List (Any W)}
    {p p' : Prev W} (h : contentsLoop rec fs cs out p = .ok (r, p')) :
    ∀ c ∈ cs, ∀ f ∈ fs, ∃ p1 r1 p2, fetchOne rec c f p1 = .ok (r1, p2) := by
  induction cs generalizing out p with
  | nil => simp
  | cons c cs ih =>
    rw [contentsLoop, bind_run] at h
    cases hf : rowLoop rec c fs [] p with
    | ok x =>
      rw [hf] at h
      intro g hg
      rcases List.mem_cons.mp hg with rfl | hg
      · exact rowLoop_ok hf
      · exact ih h g hg
    | err => rw [hf] at h; cases h
    | panic => rw [hf] at h; cases h
    | oof => rw [hf] at h; cases h

theorem fetch_ok {n : Nat} {q : Query W} {t : Tree} {p p' : Prev W} {x : Any W × Bool}
    (h : fetch n q t p = .ok (x, p')) :
    ∃ m cs, n = m + 1 ∧ queryContents q.token t = .ok cs ∧ ∀ fs, q.inside = .fetchers fs →
      ∀ c ∈ cs, ∀ f ∈ fs, ∃ p1 r1 p2, fetchOne (fetch m) c f p1 = .ok (r1, p2) := by
  cases n with
  | zero => cases h
  | succ m =>
    have h : fetchBody (fetch m) q t p = .ok (x, p') := h
    unfold fetchBody at h
    rw [bind_run] at h
    cases hq : queryContents q.token t with
    | err => rw [hq] at h; cases h
    | panic => rw [hq] at h; cases h
    | ok cs =>
      refine ⟨m, cs, rfl, rfl, ?_⟩
      intro fs hfs
      rw [hq] at h
      simp only [lift, bind_run, remember, insideInstances, hfs] at h
      cases hl : contentsLoop (fetch m) fs cs [] ((q.name, q) :: p) with
      | ok y => exact contentsLoop_ok hl
      | err => rw [hl] at h; cases h
      | panic => rw [hl] at h; cases h
      | oof => rw [hl] at h; cases h

theorem queryContents_name {tok : QToken} {t : Tree} {cs : List TContent}
    (h : queryContents tok t = .ok cs) : tok.name = t.grammar.name := by
  unfold queryContents at h
  split at h
  · cases h
  · rename_i hn
    simpa using hn

end Rodkina.Query
