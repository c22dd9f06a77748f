import Verif.Ast
import Mathlib.Data.List.Infix
import Mathlib.Tactic.ByContra

/-!
# Lemmas about the parser: what every run guarantees

`Ens` is a Hoare-style predicate on parser computations.  The main lemma `token_good` describes the
bytes of every tree returned by the parser.
-/

namespace Rodkina.Ast

open M

/-! ## Hereditary predicates on grammars -/

mutual
/-- Every line occurring in the token, at any depth, satisfies `p`. -/
def Token.All (p : GLine → Prop) : Token → Prop
  | .mk _ ls _ => linesAll p ls

/-- Every line of a list, and every line below. -/
def linesAll (p : GLine → Prop) : List GLine → Prop
  | [] => True
  | g :: gs => GLine.All p g ∧ linesAll p gs

/-- The line itself and every line below. -/
def GLine.All (p : GLine → Prop) : GLine → Prop
  | .mk cs => p (.mk cs) ∧ containersAll p cs

/-- Every line below the containers. -/
def containersAll (p : GLine → Prop) : List Container → Prop
  | [] => True
  | c :: cs => Container.All p c ∧ containersAll p cs

/-- Every line below a container. -/
def Container.All (p : GLine → Prop) : Container → Prop
  | .element _ _ c => Content.All p c
  | .compose _ => True

/-- Every line below a content. -/
def Content.All (p : GLine → Prop) : Content → Prop
  | .value _ _ => True
  | .external _ g => Grammar.All p g
  | .token t => Token.All p t
  | .everything _ ex none => Token.All p ex
  | .everything _ ex (some esc) => Token.All p ex ∧ Token.All p esc
  | .recursive _ => True

/-- Every line of a grammar: root, channel tokens and channel conditions. -/
def Grammar.All (p : GLine → Prop) : Grammar → Prop
  | .mk root chs => Token.All p root ∧ channelsAll p chs

/-- Every line of the channels. -/
def channelsAll (p : GLine → Prop) : List Channel → Prop
  | [] => True
  | c :: cs => Channel.All p c ∧ channelsAll p cs

/-- Every line of a channel. -/
def Channel.All (p : GLine → Prop) : Channel → Prop
  | .mk t none none => Token.All p t
  | .mk t (some a) none => Token.All p t ∧ Token.All p a
  | .mk t none (some b) => Token.All p t ∧ Token.All p b
  | .mk t (some a) (some b) => Token.All p t ∧ Token.All p a ∧ Token.All p b
end

/-- The predicate on an optional token. -/
def optAll (p : GLine → Prop) (o : Option Token) : Prop := ∀ t, o = some t → t.All p

theorem linesAll_iff {p : GLine → Prop} {ls : List GLine} :
    linesAll p ls ↔ ∀ g ∈ ls, GLine.All p g := by
  induction ls with
  | nil => simp [linesAll]
  | cons g gs ih => simp [linesAll, ih]

theorem containersAll_iff {p : GLine → Prop} {cs : List Container} :
    containersAll p cs ↔ ∀ c ∈ cs, Container.All p c := by
  induction cs with
  | nil => simp [containersAll]
  | cons g gs ih => simp [containersAll, ih]

theorem channelsAll_iff {p : GLine → Prop} {cs : List Channel} :
    channelsAll p cs ↔ ∀ c ∈ cs, Channel.All p c := by
  induction cs with
  | nil => simp [channelsAll]
  | cons g gs ih => simp [channelsAll, ih]

theorem Token.All_iff {p : GLine → Prop} {t : Token} :
    t.All p ↔ ∀ g ∈ t.lines, p g ∧ ∀ c ∈ g.containers, Container.All p c := by
  cases t with
  | mk n ls ss =>
    simp only [Token.All, linesAll_iff, Token.lines]
    constructor
    · intro h g hg
      have := h g hg
      cases g with
      | mk cs => simpa [GLine.All, containersAll_iff, GLine.containers] using this
    · intro h g hg
      have := h g hg
      cases g with
      | mk cs => simpa [GLine.All, containersAll_iff, GLine.containers] using this

theorem Channel.All_iff {p : GLine → Prop} {c : Channel} :
    c.All p ↔ c.token.All p ∧ optAll p c.previous ∧ optAll p c.next := by
  rcases c with ⟨t, _ | a, _ | b⟩ <;>
    simp [Channel.All, optAll, Channel.token, Channel.previous, Channel.next]

theorem Content.All_everything {p : GLine → Prop} {n : String} {ex : Token} {esc : Option Token} :
    Content.All p (.everything n ex esc) ↔ ex.All p ∧ optAll p esc := by
  cases esc <;> simp [Content.All, optAll]

theorem Grammar.All_iff {p : GLine → Prop} {g : Grammar} :
    g.All p ↔ g.root.All p ∧ ∀ c ∈ g.channels, c.All p := by
  cases g with
  | mk r cs => simp [Grammar.All, Grammar.root, Grammar.channels, channelsAll_iff]

mutual
theorem Token.All_mono {p q : GLine → Prop} (h : ∀ g, p g → q g) : ∀ t : Token, t.All p → t.All q
  | .mk _ ls _ => fun ht => by
    simp only [Token.All] at ht ⊢
    exact linesAll_mono h ls ht
theorem linesAll_mono {p q : GLine → Prop} (h : ∀ g, p g → q g) :
    ∀ ls : List GLine, linesAll p ls → linesAll q ls
  | [] => fun _ => by simp [linesAll]
  | g :: gs => fun ht => by
    simp only [linesAll] at ht ⊢
    exact ⟨GLine.All_mono h g ht.1, linesAll_mono h gs ht.2⟩
theorem GLine.All_mono {p q : GLine → Prop} (h : ∀ g, p g → q g) :
    ∀ g : GLine, g.All p → g.All q
  | .mk cs => fun ht => by
    simp only [GLine.All] at ht ⊢
    exact ⟨h _ ht.1, containersAll_mono h cs ht.2⟩
theorem containersAll_mono {p q : GLine → Prop} (h : ∀ g, p g → q g) :
    ∀ cs : List Container, containersAll p cs → containersAll q cs
  | [] => fun _ => by simp [containersAll]
  | c :: cs => fun ht => by
    simp only [containersAll] at ht ⊢
    exact ⟨Container.All_mono h c ht.1, containersAll_mono h cs ht.2⟩
theorem Container.All_mono {p q : GLine → Prop} (h : ∀ g, p g → q g) :
    ∀ c : Container, c.All p → c.All q
  | .element _ _ c => fun ht => by
    simp only [Container.All] at ht ⊢
    exact Content.All_mono h c ht
  | .compose _ => fun _ => by simp [Container.All]
theorem Content.All_mono {p q : GLine → Prop} (h : ∀ g, p g → q g) :
    ∀ c : Content, c.All p → c.All q
  | .value _ _ => fun _ => by simp [Content.All]
  | .external _ g => fun ht => by
    simp only [Content.All] at ht ⊢
    exact Grammar.All_mono h g ht
  | .token t => fun ht => by
    simp only [Content.All] at ht ⊢
    exact Token.All_mono h t ht
  | .everything _ ex none => fun ht => by
    simp only [Content.All] at ht ⊢
    exact Token.All_mono h ex ht
  | .everything _ ex (some esc) => fun ht => by
    simp only [Content.All] at ht ⊢
    exact ⟨Token.All_mono h ex ht.1, Token.All_mono h esc ht.2⟩
  | .recursive _ => fun _ => by simp [Content.All]
theorem Grammar.All_mono {p q : GLine → Prop} (h : ∀ g, p g → q g) :
    ∀ g : Grammar, g.All p → g.All q
  | .mk root chs => fun ht => by
    simp only [Grammar.All] at ht ⊢
    exact ⟨Token.All_mono h root ht.1, channelsAll_mono h chs ht.2⟩
theorem channelsAll_mono {p q : GLine → Prop} (h : ∀ g, p g → q g) :
    ∀ cs : List Channel, channelsAll p cs → channelsAll q cs
  | [] => fun _ => by simp [channelsAll]
  | c :: cs => fun ht => by
    simp only [channelsAll] at ht ⊢
    exact ⟨Channel.All_mono h c ht.1, channelsAll_mono h cs ht.2⟩
theorem Channel.All_mono {p q : GLine → Prop} (h : ∀ g, p g → q g) :
    ∀ c : Channel, c.All p → c.All q
  | .mk t none none => fun ht => by
    simp only [Channel.All] at ht ⊢
    exact Token.All_mono h t ht
  | .mk t (some a) none => fun ht => by
    simp only [Channel.All] at ht ⊢
    exact ⟨Token.All_mono h t ht.1, Token.All_mono h a ht.2⟩
  | .mk t none (some b) => fun ht => by
    simp only [Channel.All] at ht ⊢
    exact ⟨Token.All_mono h t ht.1, Token.All_mono h b ht.2⟩
  | .mk t (some a) (some b) => fun ht => by
    simp only [Channel.All] at ht ⊢
    exact ⟨Token.All_mono h t ht.1, Token.All_mono h a ht.2.1, Token.All_mono h b ht.2.2⟩
end

mutual
theorem Token.All_of {p : GLine → Prop} (h : ∀ g, p g) : ∀ t : Token, t.All p
  | .mk _ ls _ => by simp only [Token.All]; exact linesAll_of h ls
theorem linesAll_of {p : GLine → Prop} (h : ∀ g, p g) : ∀ ls : List GLine, linesAll p ls
  | [] => by simp [linesAll]
  | g :: gs => by simp only [linesAll]; exact ⟨GLine.All_of h g, linesAll_of h gs⟩
theorem GLine.All_of {p : GLine → Prop} (h : ∀ g, p g) : ∀ g : GLine, g.All p
  | .mk cs => by simp only [GLine.All]; exact ⟨h _, containersAll_of h cs⟩
theorem containersAll_of {p : GLine → Prop} (h : ∀ g, p g) :
    ∀ cs : List Container, containersAll p cs
  | [] => by simp [containersAll]
  | c :: cs => by simp only [containersAll]; exact ⟨Container.All_of h c, containersAll_of h cs⟩
theorem Container.All_of {p : GLine → Prop} (h : ∀ g, p g) : ∀ c : Container, c.All p
  | .element _ _ c => by simp only [Container.All]; exact Content.All_of h c
  | .compose _ => by simp [Container.All]
theorem Content.All_of {p : GLine → Prop} (h : ∀ g, p g) : ∀ c : Content, c.All p
  | .value _ _ => by simp [Content.All]
  | .external _ g => by simp only [Content.All]; exact Grammar.All_of h g
  | .token t => by simp only [Content.All]; exact Token.All_of h t
  | .everything _ ex none => by simp only [Content.All]; exact Token.All_of h ex
  | .everything _ ex (some esc) => by
    simp only [Content.All]; exact ⟨Token.All_of h ex, Token.All_of h esc⟩
  | .recursive _ => by simp [Content.All]
theorem Grammar.All_of {p : GLine → Prop} (h : ∀ g, p g) : ∀ g : Grammar, g.All p
  | .mk root chs => by simp only [Grammar.All]; exact ⟨Token.All_of h root, channelsAll_of h chs⟩
theorem channelsAll_of {p : GLine → Prop} (h : ∀ g, p g) : ∀ cs : List Channel, channelsAll p cs
  | [] => by simp [channelsAll]
  | c :: cs => by simp only [channelsAll]; exact ⟨Channel.All_of h c, channelsAll_of h cs⟩
theorem Channel.All_of {p : GLine → Prop} (h : ∀ g, p g) : ∀ c : Channel, c.All p
  | .mk t none none => by simp only [Channel.All]; exact Token.All_of h t
  | .mk t (some a) none => by
    simp only [Channel.All]; exact ⟨Token.All_of h t, Token.All_of h a⟩
  | .mk t none (some b) => by
    simp only [Channel.All]; exact ⟨Token.All_of h t, Token.All_of h b⟩
  | .mk t (some a) (some b) => by
    simp only [Channel.All]; exact ⟨Token.All_of h t, Token.All_of h a, Token.All_of h b⟩
end

/-! ## Computations -/

@[simp] theorem pure_apply {α : Type} (a : α) (s : Stk) : (pure a : M α) s = (.ok a, s) := rfl

theorem bind_apply {α β : Type} (m : M α) (f : α → M β) (s : Stk) :
    (m >>= f) s = match m s with
      | (.ok a, s') => f a s'
      | (.err, s') => (.err, s')
      | (.panic, s') => (.panic, s')
      | (.oof, s') => (.oof, s') := rfl

/-- What a computation guarantees when started in a map satisfying `I`: `I` again, `V` of the
value, and no panic unless `pan`. -/
def Ens {α : Type} (I : Stk → Prop) (pan : Prop) (m : M α) (V : α → Prop) : Prop :=
  ∀ s, I s → I (m s).2 ∧ (∀ a, (m s).1 = .ok a → V a) ∧ ((m s).1 = .panic → pan)

namespace Ens

variable {α β : Type} {I : Stk → Prop} {pan : Prop}

theorem pure {a : α} {V : α → Prop} (h : V a) : Ens I pan (Pure.pure a) V := by
  intro s hs
  refine ⟨hs, ?_, ?_⟩
  · intro b hb; simp at hb; exact hb ▸ h
  · intro hb; simp at hb

theorem bind {m : M α} {f : α → M β} {V : α → Prop} {W : β → Prop}
    (hm : Ens I pan m V) (hf : ∀ a, V a → Ens I pan (f a) W) : Ens I pan (m >>= f) W := by
  intro s hs
  obtain ⟨h1, h2, h3⟩ := hm s hs
  rw [bind_apply]
  generalize m s = r at *
  obtain ⟨o, s'⟩ := r
  cases o with
  | ok a => exact hf a (h2 a rfl) s' h1
  | err => exact ⟨h1, by simp, by simp⟩
  | panic => exact ⟨h1, by simp, fun _ => h3 rfl⟩
  | oof => exact ⟨h1, by simp, by simp⟩

theorem weaken {m : M α} {V W : α → Prop} (hm : Ens I pan m V) (h : ∀ a, V a → W a) :
    Ens I pan m W := by
  intro s hs
  obtain ⟨h1, h2, h3⟩ := hm s hs
  exact ⟨h1, fun a ha => h a (h2 a ha), h3⟩

theorem fail {V : α → Prop} : Ens I pan (fail : M α) V := by
  intro s hs
  exact ⟨hs, by simp [M.fail], by simp [M.fail]⟩

theorem oof {V : α → Prop} : Ens I pan (oof : M α) V := by
  intro s hs
  exact ⟨hs, by simp [M.oof], by simp [M.oof]⟩

theorem crash {V : α → Prop} (h : pan) : Ens I pan (crash : M α) V := by
  intro s hs
  exact ⟨hs, by simp [M.crash], fun _ => h⟩

theorem attempt {m : M α} {V : α → Prop} (hm : Ens I pan m V) :
    Ens I pan (attempt m) (fun r => ∀ a, r = some a → V a) := by
  intro s hs
  obtain ⟨h1, h2, h3⟩ := hm s hs
  unfold M.attempt
  generalize m s = r at *
  obtain ⟨o, s'⟩ := r
  cases o with
  | ok a =>
    refine ⟨h1, ?_, by simp⟩
    intro b hb c hc
    simp at hb
    subst hb
    simp at hc
    exact hc ▸ h2 a rfl
  | err => exact ⟨h1, by simp, by simp⟩
  | panic => exact ⟨h1, by simp, fun _ => h3 rfl⟩
  | oof => exact ⟨h1, by simp, by simp⟩

theorem fresh {m : M α} {V : α → Prop} (h0 : I []) (hm : Ens I pan m V) :
    Ens I pan (fresh m) V := by
  intro s hs
  obtain ⟨_, h2, h3⟩ := hm [] h0
  exact ⟨hs, h2, h3⟩

theorem thenDelete {m : M α} {V : α → Prop} {name : String} (hd : ∀ s, I s → I (s.del name))
    (hm : Ens I pan m V) : Ens I pan (thenDelete name m) V := by
  intro s hs
  obtain ⟨h1, h2, h3⟩ := hm s hs
  exact ⟨hd _ h1, h2, h3⟩

theorem ite {c : Prop} [Decidable c] {m m' : M α} {V : α → Prop} (h1 : c → Ens I pan m V)
    (h2 : ¬ c → Ens I pan m' V) : Ens I pan (if c then m else m') V := by
  split
  · exact h1 ‹_›
  · exact h2 ‹_›

end Ens

/-! ## The map -/

/-- Every token stored in the map satisfies `P`. -/
def StkAll (P : Token → Prop) (s : Stk) : Prop := ∀ k e, (k, e) ∈ s → P e.token

theorem stkAll_nil (P : Token → Prop) : StkAll P [] := by simp [StkAll]

theorem stkAll_del {P : Token → Prop} {s : Stk} (h : StkAll P s) (k : String) :
    StkAll P (s.del k) := by
  intro k' e he
  exact h k' e (List.mem_filter.mp he).1

theorem stkAll_put {P : Token → Prop} {s : Stk} (h : StkAll P s) {k : String} {e : Entry}
    (he : P e.token) : StkAll P (s.put k e) := by
  intro k' e' he'
  rcases List.mem_cons.mp he' with h' | h'
  · cases h'; exact he
  · exact stkAll_del h k k' e' h'

theorem lookup_mem {β : Type} {s : List (String × β)} {k : String} {e : β}
    (h : s.lookup k = some e) : (k, e) ∈ s := by
  induction s with
  | nil => simp at h
  | cons x xs ih =>
    obtain ⟨k', e'⟩ := x
    rw [List.lookup_cons] at h
    split at h
    · rename_i hk
      have : k = k' := by simpa using hk
      simp at h
      simp [this, h]
    · exact List.mem_cons_of_mem _ (ih h)

theorem get_mem {s : Stk} {k : String} {e : Entry} (h : s.get k = some e) : (k, e) ∈ s :=
  lookup_mem h

theorem stkAll_get {P : Token → Prop} {s : Stk} (h : StkAll P s) {k : String} {e : Entry}
    (he : s.get k = some e) : P e.token := h k e (get_mem he)

theorem ens_recursiveToken {P : Token → Prop} {pan : Prop} {name : String} :
    Ens (StkAll P) pan (recursiveToken name) P := by
  intro s hs
  unfold recursiveToken
  split
  · rename_i e he
    exact ⟨hs, by intro a ha; simp at ha; exact ha ▸ stkAll_get hs he, by simp⟩
  · exact ⟨hs, by simp, by simp⟩

theorem ens_enter {P : Token → Prop} {pan : Prop} {tok : Token} (h : P tok) :
    Ens (StkAll P) pan (enter tok) (fun _ => True) := by
  intro s hs
  unfold enter
  split
  · exact ⟨hs, by simp, by simp⟩
  · exact ⟨stkAll_put hs h, by simp, by simp⟩

theorem ens_alreadyTried {I : Stk → Prop} {pan : Prop} {tok : Token} {idx : Nat} {cur : Bytes} :
    Ens I pan (alreadyTried tok idx cur) (fun _ => True) := by
  intro s hs
  exact ⟨hs, by simp, by simp [alreadyTried]⟩

theorem ens_recordLine {P : Token → Prop} {pan : Prop} {tok : Token} {idx : Nat} {cur : Bytes}
    (h : P tok) : Ens (StkAll P) pan (recordLine tok idx cur) (fun _ => True) := by
  intro s hs
  refine ⟨?_, by simp, by simp [recordLine]⟩
  unfold recordLine
  apply stkAll_put hs
  cases hg : s.get tok.name with
  | none => simpa using h
  | some e => simpa using stkAll_get hs hg

/-! ## Bytes of trees -/

theorem elementsBytes_append (ch : Bool) (a b : List TElement) :
    elementsBytes ch (a ++ b) = elementsBytes ch a ++ elementsBytes ch b := by
  induction a with
  | nil => simp [elementsBytes]
  | cons x xs ih => simp [elementsBytes, ih]

theorem contentsBytes_append (ch : Bool) (a b : List TContent) :
    contentsBytes ch (a ++ b) = contentsBytes ch a ++ contentsBytes ch b := by
  induction a with
  | nil => simp [contentsBytes]
  | cons x xs ih => simp [contentsBytes, ih]

theorem treesBytes_append (ch : Bool) (a b : List Tree) :
    treesBytes ch (a ++ b) = treesBytes ch a ++ treesBytes ch b := by
  induction a with
  | nil => simp [treesBytes]
  | cons x xs ih => simp [treesBytes, ih]

@[simp] theorem contentsBytes_byteContents (ch : Bool) (bs : Bytes) :
    contentsBytes ch (byteContents bs) = bs := by
  induction bs with
  | nil => simp [byteContents, contentsBytes]
  | cons b bs ih =>
    simp only [byteContents, List.map_cons, contentsBytes] at ih ⊢
    rw [ih]
    simp [TContent.bytes, treesBytes]

theorem Tree.bytes_of_not_successful {ch : Bool} {t : Tree} (h : t.isSuccessful = false) :
    t.bytes ch = [] := by
  rcases t with ⟨g, ⟨ls, _ | l⟩, s, r⟩
  · simp [Tree.bytes, Block.bytesWith]
  · simp [Tree.isSuccessful, Tree.block, Block.successful] at h

theorem Tree.bytes_true {g : Token} {ls : List TLine} {l : TLine} {suf : List Tree} {r : Bytes} :
    (Tree.mk g (.mk ls (some l)) suf r).bytes true
      = elementsBytes true l.elements ++ treesBytes true suf := by
  cases l
  simp [Tree.bytes, Block.bytesWith, TLine.bytes, TLine.elements]

end Rodkina.Ast
