import Verif.AstStrip
import Verif.AstShippedSpec

/-!
# The shipped tokens match what the specification says
-/

namespace Rodkina.Ast

mutual
theorem Tree.bytes_shape : ∀ t : Tree, t.bytes false = t.shape.bytes
  | .mk g b s r => by
    rw [Tree.bytes, Tree.shape]
    exact Block.bytes_shape g.name (treesBytes false s) b
theorem Block.bytes_shape (name : String) (suf : Bytes) : ∀ b : Block,
    Block.bytesWith false b suf = (Block.shape name b).bytes
  | .mk ls none => by simp [Block.bytesWith, Block.shape, Shape.bytes, shapeElemsBytes]
  | .mk ls (some l) => by
    rw [Block.bytesWith, Block.shape, TLine.bytes_shape name l]
    simp
theorem TLine.bytes_shape (name : String) : ∀ l : TLine, TLine.bytes false l = (TLine.shape name l).bytes
  | .mk i g rev es => by
    rw [TLine.bytes, TLine.shape, Shape.bytes, elementsBytes_shape es]
theorem elementsBytes_shape : ∀ es : List TElement,
    elementsBytes false es = shapeElemsBytes (elementsShape es)
  | [] => by simp [elementsBytes, elementsShape, shapeElemsBytes]
  | e :: es => by
    rw [elementsBytes, elementsShape, shapeElemsBytes, TElement.bytes_shape e, elementsBytes_shape es]
theorem TElement.bytes_shape : ∀ e : TElement, TElement.bytes false e = (TElement.shape e).bytes
  | .mk g cs => by rw [TElement.bytes, TElement.shape, ShapeElem.bytes, contentsBytes_shape cs]
theorem contentsBytes_shape : ∀ cs : List TContent,
    contentsBytes false cs = shapesBytes (contentsShape cs)
  | [] => by simp [contentsBytes, contentsShape, shapesBytes]
  | c :: cs => by
    rw [contentsBytes, contentsShape, shapesBytes, TContent.bytes_shape c, contentsBytes_shape cs]
theorem TContent.bytes_shape : ∀ c : TContent, TContent.bytes false c = (TContent.shape c).bytes
  | .value p b => by simp [TContent.bytes, TContent.shape, Shape.bytes]
  | .tree t => by rw [TContent.bytes, TContent.shape, Tree.bytes_shape t]
end

namespace Shipped

/-! ## White space and comments -/

theorem pegToken_value (name : String) (b : UInt8) (d : Bytes) :
    pegToken id (fromLines name [[fromValue b]]) d =
      match d with
      | [] => none
      | c :: r => if b = c then some (.node name 0 [.mk (toString b.toNat) [.byte b]], r) else none := by
  unfold fromLines
  simp only [List.map_cons, List.map_nil, pegToken, pegLines, pegLine]
  rw [pegSeq_value shrinks_id]
  cases d with
  | nil => simp [byteMatch]
  | cons c r =>
    simp only [byteMatch, id]
    by_cases h : b = c
    · subst h; simp [pegSeq]
    · simp [h]

theorem textUntil_newLine (d : Bytes) :
    textUntil (fun x => (byteSeq [fromValue 10] x).isSome) d
      = (d.takeWhile (· != 10), d.dropWhile (· != 10)) := by
  have hstop : ∀ (b : UInt8) (r : Bytes), (byteSeq [fromValue 10] (b :: r)).isSome = decide (b = 10) := by
    intro b r
    simp only [fromValue, once, byteSeq]
    rw [greedy_once _ _ (byteMatch_nil shrinks_id 10)]
    simp only [byteMatch, id]
    by_cases h : b = 10
    · subst h; simp
    · have : ¬ (10 : UInt8) = b := fun e => h e.symm
      simp [h, this]
  induction d with
  | nil => rfl
  | cons b r ih =>
    rw [textUntil, hstop, ih]
    by_cases h : b = 10
    · subst h; simp
    · simp [h]

/-- What the comment channel matches. -/
theorem pegToken_comment (d : Bytes) :
    (pegToken id comment d).map Prod.snd =
      match d with
      | 47 :: 47 :: r => if r.takeWhile (· != 10) = [] then none else some (r.dropWhile (· != 10))
      | _ => none := by
  unfold comment fromLines
  simp only [List.map_cons, List.map_nil, pegToken, pegLines, pegLine]
  rw [pegSeq_token]
  have hds : ∀ d, (pegToken id (allCharacters "doubleSlash" [47, 47]) d).map Prod.snd =
      match d with
      | 47 :: 47 :: r => some r
      | _ => none := by
    intro d
    unfold allCharacters fromLines
    simp only [List.map_cons, List.map_nil, pegToken, pegLines, pegLine]
    rw [pegSeq_value shrinks_id]
    cases d with
    | nil => simp [byteMatch]
    | cons b r =>
      simp only [byteMatch, id]
      by_cases hb : 47 = b
      · subst hb
        simp only [if_true, Option.bind_some]
        rw [pegSeq_value shrinks_id]
        cases r with
        | nil => simp [byteMatch]
        | cons b r =>
          simp only [byteMatch, id]
          by_cases hb : 47 = b
          · subst hb
            simp [pegSeq]
          · simp only [hb, if_false]
            split
            · rename_i h; simp at h; exact absurd h.1.symm hb
            · simp
      · simp only [hb, if_false]
        split
        · rename_i h; simp at h; exact absurd h.1.symm hb
        · simp
  have hd := hds d
  cases hp : pegToken id (allCharacters "doubleSlash" [47, 47]) d with
  | none =>
    rw [hp] at hd
    simp only [Option.bind_none, Option.map_none, Option.orElse_none]
    split
    · simp at hd
    · rfl
  | some x =>
    rw [hp] at hd
    simp only [Option.bind_some]
    split
    · rename_i r
      simp only [Option.map_some, Option.some.injEq] at hd
      rw [hd]
      simp only [pegSeq, fromEverything, once, pegContainer]
      have hc : pegContent id (.everything "everythingExceptEndOfLine" endOfLine none) =
          everythingMatch endOfLine := by
        funext d; simp [pegContent]
      have hn : everythingMatch endOfLine [] = none := by
        cases h : everythingMatch endOfLine [] with
        | none => rfl
        | some x => exact absurd (everythingMatch_eats endOfLine [] x h) (by simp)
      rw [hc, greedy_once _ _ hn]
      have he : everythingMatch endOfLine r =
          if r.takeWhile (· != 10) = [] then none
          else some (.node "endOfLineSpaces" 0
            [.mk "" ((r.takeWhile (· != 10)).map .byte)], r.dropWhile (· != 10)) := by
        have hl : endOfLine.lines = [.mk [fromValue 10], .mk [fromValue 13]] := rfl
        unfold everythingMatch
        rw [hl]
        simp only [GLine.containers, textUntil_newLine]
        rfl
      rw [he]
      split <;> simp [consElem]
    · simp at hd

theorem chStep_value (name : String) (b : UInt8) (d : Bytes) :
    chStep d (channelFromValue name b) =
      match d with
      | [] => []
      | c :: r => if b = c then r else c :: r := by
  unfold chStep channelFromValue
  simp only [Channel.token, pegToken_value]
  cases d with
  | nil => rfl
  | cons c r =>
    simp only
    by_cases h : b = c
    · simp [h]
    · simp [h]

theorem chStep_comment (d : Bytes) :
    chStep d (.mk comment none none) =
      match d with
      | 47 :: 47 :: r => if r.takeWhile (· != 10) = [] then 47 :: 47 :: r else r.dropWhile (· != 10)
      | _ => d := by
  have h := pegToken_comment d
  unfold chStep
  simp only [Channel.token]
  cases hp : pegToken id comment d with
  | none =>
    rw [hp] at h
    simp only
    split
    · simp only [Option.map_none] at h
      split at h
      · rename_i h'; rw [if_pos h']
      · simp at h
    · rfl
  | some x =>
    rw [hp] at h
    simp only
    split
    · simp only [Option.map_some] at h
      split at h
      · simp at h
      · rename_i h'
        rw [if_neg h']
        simpa using h
    · simp at h

theorem skipB_comment (d : Bytes) : skipB true d = skipB false (d.dropWhile (· != 10)) := by
  induction d with
  | nil => rfl
  | cons b r ih =>
    by_cases h : b = 10
    · subst h
      simp [skipB, isBlank]
    · rw [skipB, if_neg h, ih]
      simp [h]

theorem skipB_value {b : UInt8} (hb : isBlank b = true) (name : String) (d : Bytes) :
    skipB false (chStep d (channelFromValue name b)) = skipB false d := by
  rw [chStep_value]
  cases d with
  | nil => rfl
  | cons c r =>
    simp only
    by_cases h : b = c
    · subst h
      rw [if_pos rfl, skipB, if_pos hb]
    · rw [if_neg h]

theorem skipB_step_comment (d : Bytes) :
    skipB false (chStep d (.mk comment none none)) = skipB false d := by
  rw [chStep_comment]
  split
  · rename_i r
    split
    · rfl
    · rename_i h
      cases r with
      | nil => simp at h
      | cons c r =>
        have hc : c ≠ 10 := by
          intro hc
          subst hc
          simp at h
        rw [skipB]
        rw [if_neg (by simp [isBlank]), if_pos (by simp [opensComment, hc]), skipB,
          if_neg (by simp), skipB_comment]
  · rfl

theorem skipB_chRound (d : Bytes) : skipB false (chRound channels d) = skipB false d := by
  unfold chRound channels
  simp only [List.foldl_cons, List.foldl_nil]
  rw [skipB_step_comment]
  repeat rw [skipB_value (by simp [isBlank])]

theorem skipB_chSkip (k : Nat) (d : Bytes) : skipB false (chSkip channels k d) = skipB false d := by
  induction k generalizing d with
  | zero => rfl
  | succ k ih =>
    rw [chSkip]
    split
    · rfl
    · rw [ih, skipB_chRound]

theorem foldl_fix {chs : List Channel} {d : Bytes} (h : chRound chs d = d) :
    ∀ c ∈ chs, chStep d c = d := by
  induction chs with
  | nil => simp
  | cons c cs ih =>
    have hr : chRound (c :: cs) d = chRound cs (chStep d c) := rfl
    rw [hr] at h
    have hc : chStep d c = d := by
      rcases chStep_cases d c with h1 | h1
      · exact h1
      · exfalso
        rcases chRound_cases cs (chStep d c) with h2 | h2
        · rw [h] at h2
          rw [← h2] at h1
          omega
        · rw [h] at h2
          omega
    rw [hc] at h
    intro c' hc'
    rcases List.mem_cons.mp hc' with rfl | hc'
    · exact hc
    · exact ih h c' hc'

theorem skipB_fix {d : Bytes} (h : chRound channels d = d) : skipB false d = d := by
  have hf := foldl_fix h
  have h1 := hf _ (show channelFromValue "space" 32 ∈ channels by simp [channels])
  have h2 := hf _ (show channelFromValue "tab" 9 ∈ channels by simp [channels])
  have h3 := hf _ (show channelFromValue "newLine" 10 ∈ channels by simp [channels])
  have h4 := hf _ (show channelFromValue "retChar" 13 ∈ channels by simp [channels])
  have h5 := hf _ (show Channel.mk comment none none ∈ channels by simp [channels])
  rw [chStep_value] at h1 h2 h3 h4
  rw [chStep_comment] at h5
  cases d with
  | nil => rfl
  | cons b r =>
    have hne : ∀ x : UInt8, (if x = b then r else b :: r) = b :: r → x ≠ b := by
      intro x hx he
      rw [if_pos he] at hx
      have := congrArg List.length hx
      simp at this
    have e1 := hne _ h1
    have e2 := hne _ h2
    have e3 := hne _ h3
    have e4 := hne _ h4
    have hbl : ¬ isBlank b = true := by
      unfold isBlank
      simp only [decide_eq_true_eq]
      rintro (h | h | h | h)
      · exact e1 h.symm
      · exact e2 h.symm
      · exact e3 h.symm
      · exact e4 h.symm
    rw [skipB, if_neg hbl]
    by_cases hc : b = 47 ∧ opensComment r = true
    · exfalso
      obtain ⟨rfl, hc⟩ := hc
      unfold opensComment at hc
      split at hc
      · rename_i c r'
        simp only [bne_iff_ne, ne_eq] at hc
        simp only at h5
        rw [if_neg (by simp [hc])] at h5
        have h6 := congrArg List.length h5
        have h7 := List.length_dropWhile_le (· != 10) (c :: r')
        simp only [List.length_cons] at h6 h7
        omega
      · simp at hc
    · rw [if_neg hc]

/-- The channels of the shipped grammars skip exactly white space and comments. -/
theorem skipAll_channels : skipAll channels = skipBlanks := by
  funext d
  have h1 := (chSkip_fix channels (d.length + 1) d (by omega)).1
  have h2 := skipB_fix h1
  rw [skipB_chSkip] at h2
  exact h2.symm

theorem shrinks_skipBlanks : Shrinks skipBlanks := by
  rw [← skipAll_channels]
  exact skipAll_shrinks channels

theorem strip_channels : strip (skipAll channels) = significant := by
  rw [skipAll_channels]
  funext d
  unfold strip significant
  have : ∀ k d, stripN skipBlanks k d = significantN k d := by
    intro k
    induction k with
    | zero => intro d; rfl
    | succ k ih =>
      intro d
      rw [stripN, significantN]
      cases skipBlanks d with
      | nil => rfl
      | cons b r => simp [ih]
  exact this _ _

end Shipped

end Rodkina.Ast
