import Verif.AstJust

/-!
# The language of a grammar

What texts a grammar describes, in the ordinary sense: an alternative is chosen freely, an element is
repeated any number of times within its cardinality, a name refers to an enclosing token.  Written
without reference to the parser.  Derivations (`TreeOK`) spell texts of the language.
-/

namespace Rodkina.Ast

/-- Each byte as often as asked, in order. -/
def spelled : List (UInt8 × Nat) → Bytes
  | [] => []
  | (b, n) :: es => List.replicate n b ++ spelled es

mutual
/-- The texts of a token; `path` are the enclosing tokens. -/
inductive TokLang : List Token → Token → Bytes → Prop
  | line (path : List Token) (tok : Token) (g : GLine) (bs : Bytes) :
      g ∈ tok.lines → SeqLang (tok :: path) g.containers bs → TokLang path tok bs
/-- The texts of containers in sequence. -/
inductive SeqLang : List Token → List Container → Bytes → Prop
  | nil (path : List Token) : SeqLang path [] []
  | element (path : List Token) (min n : Nat) (max : Option Nat) (c : Content) (cs : List Container)
      (a b : Bytes) : min ≤ n → (∀ m, max = some m → n ≤ m) → RepLang path c n a →
      SeqLang path cs b → SeqLang path (.element min max c :: cs) (a ++ b)
  | compose (path : List Token) (c : Compose) (cs : List Container) (b : Bytes) :
      SeqLang path cs b → SeqLang path (.compose c :: cs) (spelled c.list ++ b)
/-- The texts of a content repeated `n` times. -/
inductive RepLang : List Token → Content → Nat → Bytes → Prop
  | zero (path : List Token) (c : Content) : RepLang path c 0 []
  | succ (path : List Token) (c : Content) (n : Nat) (a b : Bytes) :
      ContentLang path c a → RepLang path c n b → RepLang path c (n + 1) (a ++ b)
/-- The texts of a content; "everything except" stands for some text. -/
inductive ContentLang : List Token → Content → Bytes → Prop
  | value (path : List Token) (name : String) (b : UInt8) : ContentLang path (.value name b) [b]
  | token (path : List Token) (tok : Token) (bs : Bytes) :
      TokLang path tok bs → ContentLang path (.token tok) bs
  | recursive (path : List Token) (tok : Token) (bs : Bytes) :
      tok ∈ path → TokLang path tok bs → ContentLang path (.recursive tok.name) bs
  | external (path : List Token) (name : String) (root : Token) (chs : List Channel) (bs : Bytes) :
      TokLang [] root bs → ContentLang path (.external name (.mk root chs)) bs
  | everything (path : List Token) (name : String) (ex : Token) (esc : Option Token) (bs : Bytes) :
      bs ≠ [] → ContentLang path (.everything name ex esc) bs
end

theorem repLang_of {path : List Token} {c : Content} {xs : List TContent}
    (h : ∀ x ∈ xs, ContentLang path c (x.bytes false)) :
    RepLang path c xs.length (contentsBytes false xs) := by
  induction xs with
  | nil => exact .zero _ _
  | cons x xs ih =>
    rw [contentsBytes]
    exact .succ _ _ _ _ _ (h x (by simp)) (ih (fun x hx => h x (by simp [hx])))

theorem contentsBytes_values (ch : Bool) (bs : Bytes) :
    contentsBytes ch (bs.map (.value [])) = bs := by
  induction bs with
  | nil => rfl
  | cons b bs ih =>
    rw [List.map_cons, contentsBytes, ih, TContent.bytes, treesBytes]
    simp

theorem lang_of_treeOK {path : List Token} {chs : List Channel} {rev : Bool} {tok : Token} {t : Tree}
    (h : TreeOK path chs rev tok t) :
    (rev = false → TokLang path tok (t.bytes false)) ∧ (rev = true → t.bytes false ≠ []) := by
  refine TreeOK.rec
    (motive_1 := fun path _ rev tok t _ =>
      (rev = false → TokLang path tok (t.bytes false)) ∧ (rev = true → t.bytes false ≠ []))
    (motive_2 := fun _ _ _ => True)
    (motive_3 := fun path _ cs es _ => SeqLang path cs (elementsBytes false es))
    (motive_4 := fun path _ c x _ => ContentLang path c (x.bytes false))
    ?_ ?_ ?_ ?_ ?_ ?_ ?_ ?_ ?_ ?_ ?_ h
  · intro path chs tok ls i g es suf rem hg _ _ _ ih _
    refine ⟨fun _ => ?_, by simp⟩
    have hb : Tree.bytes false (.mk tok (.mk ls (some (.mk i g false es))) suf rem) =
        elementsBytes false es := by
      simp [Tree.bytes, Block.bytesWith, TLine.bytes]
    rw [hb]
    exact .line _ _ g _ (List.mem_of_getElem? hg) ih
  · intro path chs tok ls i g bs suf rem hg hne _ _
    refine ⟨by simp, fun _ => ?_⟩
    simpa [Tree.bytes, Block.bytesWith, TLine.bytes, elementsBytes, TElement.bytes,
      contentsBytes_values] using hne
  · intros; trivial
  · intros; exact .nil _
  · intro path chs max c cs es _ ih
    exact .element _ 0 0 max c cs [] _ (Nat.le_refl _) (by simp) (.zero _ _) ih
  · intro path chs min max c cs xs es _ hmin hmax _ _ _ ih1 ih2
    rw [elementsBytes, TElement.bytes]
    exact .element _ _ xs.length _ _ _ _ _ hmin hmax (repLang_of ih1) ih2
  · intro path chs name b pre _ _
    simpa [TContent.bytes] using ContentLang.value path name b
  · intro path chs tok t _ ih
    rw [TContent.bytes]
    exact .token _ _ _ (ih.1 rfl)
  · intro path chs name ex esc t _ ih
    rw [TContent.bytes]
    exact .everything _ _ _ _ _ (ih.2 rfl)
  · intro path chs tok t hm _ ih
    rw [TContent.bytes]
    exact .recursive _ _ _ hm (ih.1 rfl)
  · intro path chs name root channels ls l suf rem _ ih
    rw [TContent.bytes]
    have hb : Tree.bytes false (.mk (.mk name root.lines root.suites) (.mk ls (some l)) [] []) =
        Tree.bytes false (.mk root (.mk ls (some l)) suf rem) := by
      simp [Tree.bytes, Block.bytesWith]
    rw [hb]
    exact .external _ _ _ _ _ (ih.1 rfl)

end Rodkina.Ast
