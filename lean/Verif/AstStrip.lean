import Verif.AstShippedEval

/-!
# Channel bytes never matter

Two inputs with the same significant bytes parse to the same shape.
-/

namespace Rodkina.Ast

/-- The bytes of an input that are not channel bytes: skip, keep one byte, repeat. -/
def stripN (sk : Bytes → Bytes) : Nat → Bytes → Bytes
  | 0, _ => []
  | k + 1, d => match sk d with
    | [] => []
    | b :: r => b :: stripN sk k r

/-- The significant bytes of an input. -/
def strip (sk : Bytes → Bytes) (d : Bytes) : Bytes := stripN sk d.length d

section
variable {sk : Bytes → Bytes}

theorem stripN_fuel (h : Shrinks sk) {k j : Nat} {d : Bytes} (hk : d.length ≤ k) (hj : d.length ≤ j) :
    stripN sk k d = stripN sk j d := by
  induction k generalizing j d with
  | zero =>
    have : d = [] := List.length_eq_zero_iff.mp (by omega)
    subst this
    cases j with
    | zero => rfl
    | succ j => simp [stripN, h.nil]
  | succ k ih =>
    cases j with
    | zero =>
      have : d = [] := List.length_eq_zero_iff.mp (by omega)
      subst this
      simp [stripN, h.nil]
    | succ j =>
      have hl := h d
      rw [stripN, stripN]
      cases hs : sk d with
      | nil => rfl
      | cons b r =>
        rw [hs, List.length_cons] at hl
        simp only
        rw [ih (j := j) (d := r) (by omega) (by omega)]

/-- The defining equation of `strip`. -/
theorem strip_eq (h : Shrinks sk) (d : Bytes) :
    strip sk d = match sk d with
      | [] => []
      | b :: r => b :: strip sk r := by
  unfold strip
  have hl := h d
  cases hd : d.length with
  | zero =>
    have : d = [] := List.length_eq_zero_iff.mp hd
    subst this
    simp [stripN, h.nil]
  | succ k =>
    rw [stripN]
    cases hs : sk d with
    | nil => rfl
    | cons b r =>
      rw [hs, List.length_cons] at hl
      simp only
      rw [stripN_fuel h (by omega) (Nat.le_refl _)]

theorem strip_skip (h : Shrinks sk) (hi : ∀ d, sk (sk d) = sk d) (d : Bytes) :
    strip sk (sk d) = strip sk d := by
  rw [strip_eq h, strip_eq h d, hi]

theorem strip_nil (h : Shrinks sk) : strip sk [] = [] := by
  rw [strip_eq h, h.nil]

theorem strip_id (d : Bytes) : strip id d = d := by
  induction d with
  | nil => rfl
  | cons b r ih => rw [strip_eq shrinks_id]; simp [ih]

/-- Every step of `f` on the raw input is one of `g` on the significant bytes. -/
def Mirrors {α : Type} (sk : Bytes → Bytes) (f g : Bytes → Option (α × Bytes)) : Prop :=
  ∀ d, (f d).map (fun x => (x.1, strip sk x.2)) = g (strip sk d)

/-- Every match consumes something. -/
def Eats {α : Type} (f : Bytes → Option (α × Bytes)) : Prop :=
  ∀ d x, f d = some x → x.2.length < d.length

theorem repeatMatch_mirror {α : Type} {f g : Bytes → Option (α × Bytes)} (h : Shrinks sk)
    (hm : Mirrors sk f g) (hf : Eats f) (hg : Eats g) (max : Option Nat) (k j n : Nat) (d : Bytes)
    (hk : d.length ≤ k) (hj : (strip sk d).length ≤ j) :
    ((repeatMatch f max k n d).1, strip sk (repeatMatch f max k n d).2) =
      repeatMatch g max j n (strip sk d) := by
  have hg0 : g [] = none := by
    cases hx : g [] with
    | none => rfl
    | some x => exact absurd (hg [] x hx) (by simp)
  induction k generalizing j n d with
  | zero =>
    have : d = [] := List.length_eq_zero_iff.mp (by omega)
    subst this
    rw [strip_nil h]
    cases j <;> simp [repeatMatch, strip_nil h]
  | succ k ih =>
    have hmd := hm d
    cases j with
    | zero =>
      have h0 : strip sk d = [] := List.length_eq_zero_iff.mp (by omega)
      rw [h0, hg0, Option.map_eq_none_iff] at hmd
      have hz : repeatMatch g max 0 n (strip sk d) = ([], strip sk d) := rfl
      rw [hz, repeatMatch, hmd]
      split <;> rfl
    | succ j =>
      rw [repeatMatch, repeatMatch, ← hmd]
      by_cases hd : d = [] ∨ max = some n
      · rw [if_pos hd]
        have : strip sk d = [] ∨ max = some n := by
          rcases hd with hd | hd
          · left; rw [hd, strip_nil h]
          · exact Or.inr hd
        rw [if_pos this]
      · rw [if_neg hd]
        cases hfd : f d with
        | none =>
          simp only [Option.map_none]
          split <;> rfl
        | some x =>
          have hx := hf d x hfd
          rw [hfd, Option.map_some] at hmd
          have hgx := hg _ _ hmd.symm
          have hne : strip sk d ≠ [] := by
            intro h0
            rw [h0] at hgx
            simp at hgx
          have hmx : ¬ (strip sk d = [] ∨ max = some n) := by
            rintro (h1 | h1)
            · exact hne h1
            · exact hd (Or.inr h1)
          rw [if_neg hmx]
          simp only [Option.map_some]
          have := ih j (n + 1) x.2 (by omega) (by simp only at hgx; omega)
          rw [← this]

theorem greedy_mirror {α : Type} {f g : Bytes → Option (α × Bytes)} (h : Shrinks sk)
    (hm : Mirrors sk f g) (hf : Eats f) (hg : Eats g) (min : Nat) (max : Option Nat) :
    Mirrors sk (greedy f min max) (greedy g min max) := by
  intro d
  have := repeatMatch_mirror h hm hf hg max d.length (strip sk d).length 0 d (Nat.le_refl _)
    (Nat.le_refl _)
  unfold greedy
  rw [← this]
  simp only
  split <;> simp

theorem byteMatch_mirror (h : Shrinks sk) (b : UInt8) :
    Mirrors sk (byteMatch sk b) (byteMatch id b) := by
  intro d
  unfold byteMatch
  rw [strip_eq h d]
  cases sk d with
  | nil => rfl
  | cons b' r =>
    simp only [id]
    split <;> simp

theorem byteMatch_eats (h : Shrinks sk) (b : UInt8) : Eats (byteMatch sk b) := by
  intro d x hx
  unfold byteMatch at hx
  have hl := h d
  cases hs : sk d with
  | nil => rw [hs] at hx; exact absurd hx (by simp)
  | cons b' r =>
    rw [hs] at hx hl
    simp only [List.length_cons] at hl
    simp only at hx
    split at hx
    · injection hx with hx; subst hx; simp only; omega
    · exact absurd hx (by simp)

/-! ## Progress, for every skipping function that adds no bytes -/

theorem repeatMatch_le {α : Type} {f : Bytes → Option (α × Bytes)} (hf : Eats f) (max : Option Nat)
    (k n : Nat) (d : Bytes) :
    (repeatMatch f max k n d).2.length + (repeatMatch f max k n d).1.length ≤ d.length := by
  induction k generalizing n d with
  | zero => simp [repeatMatch]
  | succ k ih =>
    rw [repeatMatch]
    split
    · simp
    · cases h : f d with
      | none => simp
      | some x =>
        have := hf d x h
        have := ih (n + 1) x.2
        simp only [List.length_cons]
        omega

theorem everythingMatch_eats (ex : Token) : Eats (everythingMatch ex) := by
  intro d x hx
  have ht : ∀ stop d, (textUntil stop d).1.length + (textUntil stop d).2.length = d.length := by
    intro stop d
    induction d with
    | nil => rfl
    | cons b r ih =>
      rw [textUntil]
      split
      · simp
      · simp only [List.length_cons]; omega
  unfold everythingMatch at hx
  split at hx
  · exact absurd hx (by simp)
  · split at hx
    · exact absurd hx (by simp)
    · rename_i g _ _ hne
      have := ht (fun x => (byteSeq g.containers x).isSome) d
      injection hx with hx
      subst hx
      have := List.length_pos_iff.mpr hne
      simp only
      omega

mutual
theorem pegToken_eats (h : Shrinks sk) : ∀ t : Token, Eats (pegToken sk t)
  | .mk name ls _ => by
    intro d x hx
    rw [pegToken] at hx
    cases hl : pegLines sk 0 ls d with
    | none => rw [hl] at hx; exact absurd hx (by simp)
    | some y =>
      rw [hl] at hx
      simp only [Option.map_some, Option.some.injEq] at hx
      subst hx
      have := pegLines_lt h ls 0 d y hl
      have := h y.2.2
      simp only
      omega
theorem pegLines_lt (h : Shrinks sk) : ∀ (gs : List GLine) (i : Nat) (d : Bytes) y,
    pegLines sk i gs d = some y → y.2.2.length < d.length
  | [], _, _, _ => by intro hx; rw [pegLines] at hx; exact absurd hx (by simp)
  | g :: gs, i, d, y => by
    intro hx
    rw [pegLines] at hx
    cases hl : pegLine sk g d with
    | none =>
      rw [hl] at hx
      exact pegLines_lt h gs (i + 1) d y (by simpa using hx)
    | some z =>
      rw [hl] at hx
      simp at hx
      subst hx
      exact pegLine_lt h g d z hl
theorem pegLine_lt (h : Shrinks sk) : ∀ (g : GLine) (d : Bytes) y,
    pegLine sk g d = some y → y.2.length < d.length
  | .mk cs, d, y => by
    intro hx
    rw [pegLine] at hx
    cases hs : pegSeq sk cs d with
    | none => rw [hs] at hx; exact absurd hx (by simp)
    | some z =>
      rw [hs] at hx
      simp only [Option.bind_some] at hx
      split at hx
      · exact absurd hx (by simp)
      · rename_i hne
        injection hx with hx
        subst hx
        have := (pegSeq_le h cs d z hs)
        rcases this.2 with h1 | h1
        · exact absurd (by rw [h1]; rfl) hne
        · exact h1
theorem pegSeq_le (h : Shrinks sk) : ∀ (cs : List Container) (d : Bytes) y,
    pegSeq sk cs d = some y → y.2.length ≤ d.length ∧ (y.1 = [] ∨ y.2.length < d.length)
  | [], d, y => by
    intro hx
    rw [pegSeq] at hx
    injection hx with hx
    subst hx
    exact ⟨Nat.le_refl _, Or.inl rfl⟩
  | c :: cs, d, y => by
    intro hx
    rw [pegSeq] at hx
    cases hc : pegContainer sk c d with
    | none => rw [hc] at hx; exact absurd hx (by simp)
    | some z =>
      rw [hc] at hx
      simp only [Option.bind_some] at hx
      cases hs : pegSeq sk cs z.2 with
      | none => rw [hs] at hx; exact absurd hx (by simp)
      | some w =>
        rw [hs] at hx
        simp only [Option.map_some, Option.some.injEq] at hx
        subst hx
        have h1 := pegContainer_le h c d z hc
        have h2 := pegSeq_le h cs z.2 w hs
        refine ⟨by simp only; omega, ?_⟩
        cases hz : z.1 with
        | nil =>
          simp only [consElem, List.isEmpty_nil, if_true]
          rcases h2.2 with h3 | h3
          · exact Or.inl h3
          · right; omega
        | cons a as =>
          right
          rw [hz, List.length_cons] at h1
          simp only
          omega
theorem pegContainer_le (h : Shrinks sk) : ∀ (c : Container) (d : Bytes) y,
    pegContainer sk c d = some y → y.2.length + y.1.length ≤ d.length
  | .element min max c, d, y => by
    intro hx
    rw [pegContainer] at hx
    unfold greedy at hx
    split at hx
    · exact absurd hx (by simp)
    · injection hx with hx
      subst hx
      exact repeatMatch_le (pegContent_eats h c) max _ _ d
  | .compose _, d, y => by
    intro hx
    rw [pegContainer] at hx
    exact absurd hx (by simp)
theorem pegContent_eats (h : Shrinks sk) : ∀ c : Content, Eats (pegContent sk c)
  | .value _ b => by
    intro d x hx
    rw [pegContent] at hx
    exact byteMatch_eats h b d x hx
  | .token t => by
    intro d x hx
    rw [pegContent] at hx
    exact pegToken_eats h t d x hx
  | .everything _ ex _ => by
    intro d x hx
    rw [pegContent] at hx
    exact everythingMatch_eats ex d x hx
  | .external _ _ => by
    intro d x hx
    rw [pegContent] at hx
    exact absurd hx (by simp)
  | .recursive _ => by
    intro d x hx
    rw [pegContent] at hx
    exact absurd hx (by simp)
end

/-! ## Mirroring -/

mutual
/-- Tokens built from bytes and tokens only. -/
def Plain : Token → Prop
  | .mk _ ls _ => PlainLines ls
/-- All lines. -/
def PlainLines : List GLine → Prop
  | [] => True
  | g :: gs => PlainLine g ∧ PlainLines gs
/-- All containers of a line. -/
def PlainLine : GLine → Prop
  | .mk cs => PlainConts cs
/-- All containers. -/
def PlainConts : List Container → Prop
  | [] => True
  | c :: cs => PlainCont c ∧ PlainConts cs
/-- A repeated content. -/
def PlainCont : Container → Prop
  | .element _ _ c => PlainContent c
  | .compose _ => True
/-- A byte or a token. -/
def PlainContent : Content → Prop
  | .value _ _ => True
  | .token t => Plain t
  | .everything _ _ _ => False
  | .external _ _ => False
  | .recursive _ => False
end

mutual
theorem pegToken_mirror (h : Shrinks sk) (hi : ∀ d, sk (sk d) = sk d) : ∀ t : Token, Plain t →
    Mirrors sk (pegToken sk t) (pegToken id t)
  | .mk name ls _, hp => by
    intro d
    rw [pegToken, pegToken, ← pegLines_mirror h hi ls hp 0 d]
    cases pegLines sk 0 ls d with
    | none => rfl
    | some y => simp [strip_skip h hi]
theorem pegLines_mirror (h : Shrinks sk) (hi : ∀ d, sk (sk d) = sk d) : ∀ gs : List GLine,
    PlainLines gs → ∀ (i : Nat) (d : Bytes),
    (pegLines sk i gs d).map (fun x => (x.1, x.2.1, strip sk x.2.2)) = pegLines id i gs (strip sk d)
  | [], _, _, _ => by rw [pegLines, pegLines]; rfl
  | g :: gs, hp, i, d => by
    rw [pegLines, pegLines, ← pegLine_mirror h hi g hp.1 d,
      ← pegLines_mirror h hi gs hp.2 (i + 1) d]
    cases pegLine sk g d with
    | none => simp
    | some y => simp
theorem pegLine_mirror (h : Shrinks sk) (hi : ∀ d, sk (sk d) = sk d) : ∀ g : GLine,
    PlainLine g → Mirrors sk (pegLine sk g) (pegLine id g)
  | .mk cs, hp => by
    intro d
    rw [pegLine, pegLine, ← pegSeq_mirror h hi cs hp d]
    cases pegSeq sk cs d with
    | none => rfl
    | some y =>
      simp only [Option.bind_some, Option.map_some]
      split <;> simp
theorem pegSeq_mirror (h : Shrinks sk) (hi : ∀ d, sk (sk d) = sk d) : ∀ cs : List Container,
    PlainConts cs → Mirrors sk (pegSeq sk cs) (pegSeq id cs)
  | [], _ => by intro d; rw [pegSeq, pegSeq]; rfl
  | c :: cs, hp => by
    intro d
    rw [pegSeq, pegSeq, ← pegContainer_mirror h hi c hp.1 d]
    cases pegContainer sk c d with
    | none => rfl
    | some y =>
      simp only [Option.bind_some, Option.map_some]
      rw [← pegSeq_mirror h hi cs hp.2 y.2]
      simp [Function.comp_def]
theorem pegContainer_mirror (h : Shrinks sk) (hi : ∀ d, sk (sk d) = sk d) : ∀ c : Container,
    PlainCont c → Mirrors sk (pegContainer sk c) (pegContainer id c)
  | .element min max c, hp => by
    have := greedy_mirror h (pegContent_mirror h hi c hp) (pegContent_eats h c)
      (pegContent_eats shrinks_id c) min max
    intro d
    rw [pegContainer, pegContainer]
    exact this d
  | .compose _, _ => by intro d; rw [pegContainer, pegContainer]; rfl
theorem pegContent_mirror (h : Shrinks sk) (hi : ∀ d, sk (sk d) = sk d) : ∀ c : Content,
    PlainContent c → Mirrors sk (pegContent sk c) (pegContent id c)
  | .value _ b, _ => by
    intro d
    rw [pegContent, pegContent]
    exact byteMatch_mirror h b d
  | .token t, hp => by
    intro d
    rw [pegContent, pegContent]
    exact pegToken_mirror h hi t hp d
  | .everything _ _ _, hp => by exact absurd hp (by simp [PlainContent])
  | .external _ _, hp => by exact absurd hp (by simp [PlainContent])
  | .recursive _, hp => by exact absurd hp (by simp [PlainContent])
end

end

/-! ## Skipping channels repeatedly changes nothing -/

theorem chStep_cases (d : Bytes) (c : Channel) :
    chStep d c = d ∨ (chStep d c).length < d.length := by
  unfold chStep
  cases h : pegToken id c.token d with
  | none => exact Or.inl rfl
  | some x => exact Or.inr (pegToken_eats shrinks_id _ d x h)

theorem chRound_cases (chs : List Channel) (d : Bytes) :
    chRound chs d = d ∨ (chRound chs d).length < d.length := by
  unfold chRound
  induction chs generalizing d with
  | nil => exact Or.inl rfl
  | cons c cs ih =>
    rw [List.foldl_cons]
    rcases chStep_cases d c with h | h
    · rw [h]; exact ih d
    · rcases ih (chStep d c) with h' | h'
      · right; rw [h']; exact h
      · right; omega

theorem chSkip_fix (chs : List Channel) (k : Nat) (d : Bytes) (hk : d.length < k) :
    chRound chs (chSkip chs k d) = chSkip chs k d ∧ (chSkip chs k d).length ≤ d.length := by
  induction k generalizing d with
  | zero => omega
  | succ k ih =>
    rw [chSkip]
    split
    · rename_i h; exact ⟨h, Nat.le_refl _⟩
    · rename_i h
      rcases chRound_cases chs d with h' | h'
      · exact absurd h' h
      · have := ih (chRound chs d) (by omega)
        exact ⟨this.1, by omega⟩

theorem skipAll_shrinks (chs : List Channel) : Shrinks (skipAll chs) := fun d =>
  (chSkip_fix chs (d.length + 1) d (by omega)).2

theorem skipAll_of_fix {chs : List Channel} {d : Bytes} (h : chRound chs d = d) :
    skipAll chs d = d := by
  unfold skipAll
  rw [chSkip, if_pos h]

theorem skipAll_idem (chs : List Channel) (d : Bytes) :
    skipAll chs (skipAll chs d) = skipAll chs d :=
  skipAll_of_fix (chSkip_fix chs (d.length + 1) d (by omega)).1

/-- A grammar without channels on the significant bytes finds what the grammar with channels finds. -/
theorem pegToken_strip (chs : List Channel) {t : Token} (ht : Plain t) (d : Bytes) :
    (pegToken (skipAll chs) t d).map (fun x => (x.1, strip (skipAll chs) x.2)) =
      pegToken id t (strip (skipAll chs) d) :=
  pegToken_mirror (skipAll_shrinks chs) (skipAll_idem chs) t ht d

end Rodkina.Ast
