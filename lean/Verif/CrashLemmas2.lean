import Verif.CrashLemmas
/-!
# The decoders of commits, content keys and references accept, refuse and crash exactly on the bytes of the specification
-/

namespace Rodkina

open DecodeSpec CrashSpec

/-- The outcome is a value exactly if `A`, and a panic exactly if `C`. -/
def Res.Is {α : Type} (r : Res α) (A C : Prop) : Prop := (r.accepts ↔ A) ∧ (r = .panic ↔ C)

namespace Res

theorem Is.bind {α β : Type} {A C A' C' : Prop} {x : Res α} {f : α → Res β} (hx : x.Is A C)
    (hf : ∀ a, x = .ok a → (f a).Is A' C') : (x >>= f).Is (A ∧ A') (C ∨ A ∧ C') := by
  cases x with
  | ok a =>
    have hA : A := hx.1.1 ⟨a, rfl⟩
    have hC : ¬ C := fun h => by have := hx.2.2 h; cases this
    have := hf a rfl
    simp only [Res.bind_ok]
    exact ⟨by rw [this.1]; simp [hA], by rw [this.2]; simp [hA, hC]⟩
  | err =>
    have hA : ¬ A := fun h => by obtain ⟨_, h⟩ := hx.1.2 h; cases h
    have hC : ¬ C := fun h => by have := hx.2.2 h; cases this
    exact ⟨⟨fun ⟨_, h⟩ => (by cases h), fun h => absurd h.1 hA⟩, ⟨fun h => (by cases h), fun h => by simp [hA, hC] at h⟩⟩
  | panic =>
    have hA : ¬ A := fun h => by obtain ⟨_, h⟩ := hx.1.2 h; cases h
    have hC : C := hx.2.1 rfl
    exact ⟨⟨fun ⟨_, h⟩ => (by cases h), fun h => absurd h.1 hA⟩, ⟨fun _ => .inl hC, fun _ => rfl⟩⟩

theorem Is.ok {α : Type} (a : α) : (Res.ok a).Is True False :=
  ⟨⟨fun _ => trivial, fun _ => ⟨a, rfl⟩⟩, ⟨fun h => (by cases h), False.elim⟩⟩

theorem Is.err {α : Type} : (Res.err : Res α).Is False False :=
  ⟨⟨fun ⟨_, h⟩ => (by cases h), False.elim⟩, ⟨fun h => (by cases h), False.elim⟩⟩

theorem Is.panic {α : Type} : (Res.panic : Res α).Is False True :=
  ⟨⟨fun ⟨_, h⟩ => (by cases h), False.elim⟩, ⟨fun _ => trivial, fun _ => rfl⟩⟩

theorem Is.congr {α : Type} {r : Res α} {A C A' C' : Prop} (h : r.Is A C) (hA : A ↔ A') (hC : C ↔ C') : r.Is A' C' :=
  ⟨h.1.trans hA, h.2.trans hC⟩

/-- A test that panics. -/
theorem Is.check {α : Type} {r : Res α} {p A C : Prop} [Decidable p] (h : ¬ p → r.Is A C) :
    (if p then .panic else r).Is (¬ p ∧ A) (p ∨ ¬ p ∧ C) := by
  by_cases hp : p
  · rw [if_pos hp]
    exact Is.panic.congr (by simp [hp]) (by simp [hp])
  · rw [if_neg hp]
    exact (h hp).congr (by simp [hp]) (by simp [hp])

end Res

theorem Slice.sub_past {pre : Bytes} {a : Nat} (ha : pre.length = a) (n : Nat) (rest t : Bytes) :
    Slice.sub ⟨pre ++ rest, t⟩ a (a + n) =
      if rest.length + t.length < n then .panic else .ok ⟨(rest ++ t).take n, (rest ++ t).drop n⟩ := by
  unfold Slice.sub Slice.cap
  simp only [List.length_append, ha]
  by_cases h : rest.length + t.length < n
  · rw [if_neg (by omega), if_pos h]
  · rw [if_pos (by omega), if_neg h]
    subst ha
    simp

theorem Slice.from_past {pre : Bytes} {a : Nat} (ha : pre.length = a) (n : Nat) (rest t : Bytes) :
    Slice.from' ⟨pre ++ rest, t⟩ (a + n) = if rest.length < n then .panic else .ok ⟨rest.drop n, t⟩ := by
  unfold Slice.from' Slice.len
  simp only [List.length_append, ha]
  by_cases h : rest.length < n
  · rw [if_neg (by omega), if_pos h]
  · rw [if_pos (by omega), if_neg h]
    subst ha
    simp

theorem Slice.sub_shift (pre b t : Bytes) (x y : Nat) :
    Slice.sub ⟨pre ++ b, t⟩ (pre.length + x) (pre.length + y) = Slice.sub ⟨b, t⟩ x y := by
  unfold Slice.sub Slice.cap
  simp only [List.length_append]
  by_cases h : x ≤ y ∧ y ≤ b.length + t.length
  · rw [if_pos (by omega), if_pos h]
    simp [Nat.add_sub_add_left]
  · rw [if_neg (by omega), if_neg h]

namespace Ref

/-! ## Commits -/

theorem readProof_is (b t : Bytes) : (readProof ⟨b, t⟩).Is (¬ ProofOverruns b) (ProofOverruns b) := by
  unfold readProof
  cases b with
  | nil =>
    rw [if_neg (show ¬ Slice.len ⟨[], t⟩ > 0 by simp [Slice.len])]
    have : ¬ ProofOverruns [] := by
      rintro ⟨r, h, _⟩
      cases h
    exact (Res.Is.ok _).congr (by simp [this]) (by simp [this])
  | cons x r =>
    rw [if_pos (show Slice.len ⟨x :: r, t⟩ > 0 by simp [Slice.len])]
    have e1 : Slice.sub ⟨x :: r, t⟩ 0 1 = .ok ⟨[x], r ++ t⟩ := Slice.sub_zero_append [x] r t
    rw [e1]
    simp only [Res.bind_ok, List.head?_cons, Option.some.injEq]
    by_cases hx : x = 0
    · subst hx
      have e2 : Slice.from' ⟨0 :: r, t⟩ 1 = .ok ⟨r, t⟩ := Slice.from_append [0] r t
      rw [if_pos rfl, e2]
      simp only [Res.bind_ok]
      by_cases h8 : r.length < 8
      · have hov : ProofOverruns (0 :: r) := ⟨r, rfl, .inl h8⟩
        refine Res.Is.congr (A := False) (C := True) ?_ (by simp [hov]) (by simp [hov])
        cases e3 : Slice.sub ⟨r, t⟩ 0 8 with
        | err => exact absurd e3 (Slice.sub_never_err _ _ _)
        | panic => exact Res.Is.panic
        | ok l =>
          simp only [Res.bind_ok]
          cases e4 : Slice.sub ⟨r, t⟩ 8 (8 + leNat l.vis) with
          | err => exact absurd e4 (Slice.sub_never_err _ _ _)
          | panic => exact Res.Is.panic
          | ok p =>
            simp only [Res.bind_ok]
            have : Slice.from' ⟨r, t⟩ (8 + leNat l.vis) = .panic := by
              unfold Slice.from' Slice.len
              rw [if_neg (show ¬ 8 + leNat l.vis ≤ r.length by omega)]
            rw [this]
            exact Res.Is.panic
      · obtain ⟨hs, hn⟩ := split_length r (by omega)
        generalize leNat (r.take 8) = n at hs hn
        generalize r.drop 8 = rest at hs
        subst hs
        rw [Slice.sub_field]
        simp only [Res.bind_ok, leNat_le64 n hn, Slice.sub_after]
        rw [Nat.add_comm 8 n, Slice.from_after]
        have hov : ProofOverruns (0 :: (le64 n ++ rest)) ↔ rest.length < n := by
          constructor
          · rintro ⟨r', he, h | ⟨m, rest', hm, he', h⟩⟩
            · simp only [List.cons.injEq, true_and] at he
              subst he
              exact absurd h h8
            · simp only [List.cons.injEq, true_and] at he
              subst he
              obtain ⟨h1, rfl⟩ := List.append_inj he' (by simp)
              rw [le64_inj hn hm h1]
              exact h
          · exact fun h => ⟨_, rfl, .inr ⟨n, rest, hn, rfl, h⟩⟩
        rw [hov]
        by_cases hlt : rest.length < n
        · rw [if_pos hlt]
          refine Res.Is.congr (A := False) (C := True) ?_ (by simp [hlt]) (by simp [hlt])
          split <;> exact Res.Is.panic
        · rw [if_neg hlt, if_neg (by omega)]
          exact (Res.Is.ok _).congr (by simp [hlt]) (by simp [hlt])
    · rw [if_neg hx]
      have : ¬ ProofOverruns (x :: r) := by
        rintro ⟨r', h, _⟩
        injection h with h
        exact hx h
      exact (Res.Is.ok _).congr (by simp [this]) (by simp [this])

theorem readParent_is (S : Sha) (c : Slice) : (readParent S c).Is True False := by
  unfold readParent
  split
  · rename_i h
    rw [Slice.from_in c (a := 1) (by omega)]
    exact Res.Is.ok _
  · exact Res.Is.ok _

theorem tree_is (S : Sha) (b t : Bytes) : (HashTree.toHashTree S ⟨b, t⟩).Is (TreeBytes b) (TreeCrashes b t) :=
  HashTree.tree_outcomes S b t

theorem toCommit_is (S : Sha) (mv : UInt8) (b t : Bytes) : (toCommit S mv ⟨b, t⟩).Is (CommitBytes b) (CommitCrashes b t) := by
  unfold toCommit
  by_cases hlen : b.length < 208
  · rw [if_pos (by simpa [Slice.len, commitMinSize] using hlen)]
    refine Res.Is.err.congr ⟨False.elim, ?_⟩ ⟨False.elim, ?_⟩
    · rintro ⟨time, values, rest, ht, _, ⟨hd, l, r, h64, _, h1, h2, rfl⟩, _, rfl⟩
      have := h1.length
      have := h2.length
      simp at hlen; omega
    · rintro ⟨time, n, rest, ht, _, h192, rfl, _⟩
      simp at hlen; omega
  · rw [if_neg (by simpa [Slice.len, commitMinSize] using hlen)]
    have ht : (b.take 8).length = 8 := by simp; omega
    obtain ⟨hs, hn⟩ := split_length (b.drop 8) (by simp; omega)
    have hb : b = b.take 8 ++ (le64 (leNat ((b.drop 8).take 8)) ++ (b.drop 8).drop 8) := by rw [← hs, List.take_append_drop]
    have hr : 192 ≤ ((b.drop 8).drop 8).length := by simp; omega
    clear hs
    generalize b.take 8 = time at hb ht
    generalize leNat ((b.drop 8).take 8) = n at hb hn
    generalize (b.drop 8).drop 8 = rest at hb hr
    subst hb
    have e1 : Slice.sub ⟨time ++ (le64 n ++ rest), t⟩ 0 8 = .ok ⟨time, (le64 n ++ rest) ++ t⟩ := by
      have := Slice.sub_zero_append time (le64 n ++ rest) t
      rwa [ht] at this
    have e2 : Slice.sub ⟨time ++ (le64 n ++ rest), t⟩ 8 16 = .ok ⟨le64 n, rest ++ t⟩ := by
      have := Slice.sub_append time (le64 n) rest t
      rw [ht, le64_length, List.append_assoc] at this
      exact this
    have h16 : (time ++ le64 n).length = 16 := by simp [ht]
    rw [e1, e2]
    simp only [Res.bind_ok, leNat_le64 n hn]
    rw [← List.append_assoc, Slice.sub_past h16, Slice.from_past h16]
    have ef : ∀ {β : Type} (p : Prop) [Decidable p] (s : Slice) (f : Slice → Res β),
        ((if p then (.panic : Res Slice) else .ok s) >>= f) = if p then .panic else f s := by
      intro β p _ s f
      split <;> rfl
    simp only [ef]
    have main := Res.Is.check (p := rest.length + t.length < n) (fun _ =>
      (Res.Is.bind (tree_is S ((rest ++ t).take n) ((rest ++ t).drop n)) (fun values _ =>
        Res.Is.check (p := rest.length < n) (fun _ =>
          (readProof_is (rest.drop n) t).bind (fun pr _ => (readParent_is S pr.2).bind (fun parent _ =>
            Res.Is.ok (commitNow S mv values (ofU64 (leNat time)) parent pr.1)))))))
    refine Res.Is.congr main ?_ ?_
    · constructor
      · rintro ⟨h1, h2, h3, h4, -⟩
        have hl : (rest.take n).length = n := by simp; omega
        rw [List.take_append_of_le_length (by omega)] at h2
        refine ⟨time, rest.take n, rest.drop n, ht, by omega, h2, h4, ?_⟩
        rw [hl, List.take_append_drop, List.append_assoc]
      · rintro ⟨time', values, rest', ht', hv, h2, h4, he⟩
        rw [List.append_assoc] at he
        obtain ⟨rfl, he2⟩ := List.append_inj he (by omega)
        obtain ⟨h1, rfl⟩ := List.append_inj he2 (by simp)
        have := le64_inj hn hv h1
        subst this
        rw [List.append_assoc, List.take_left, List.drop_left]
        refine ⟨by simp; omega, h2, by simp, h4, trivial, trivial⟩
    · constructor
      · intro h
        refine ⟨time, n, rest, ht, hn, hr, by rw [List.append_assoc], ?_⟩
        rcases h with h | ⟨hle, h | ⟨hT, h⟩⟩
        · exact .inl h
        · exact .inr (.inl ⟨_, _, (List.take_append_drop n _).symm, by simp; omega, .inl h⟩)
        · rcases h with h | ⟨hle', h | ⟨_, h | ⟨_, h⟩⟩⟩
          · exact .inr (.inl ⟨_, _, (List.take_append_drop n _).symm, by simp; omega, .inr ⟨hT, h⟩⟩)
          · rw [List.take_append_of_le_length (by omega)] at hT
            exact .inr (.inr ⟨_, _, (List.take_append_drop n _).symm, by simp; omega, hT, h⟩)
          · exact h.elim
          · exact h.elim
      · rintro ⟨time', n', rest', ht', hn', hr', he, h⟩
        rw [List.append_assoc] at he
        obtain ⟨rfl, he2⟩ := List.append_inj he (by omega)
        obtain ⟨h1, rfl⟩ := List.append_inj he2 (by simp)
        have := le64_inj hn hn' h1
        subst this
        rcases h with h | ⟨values, more, he, hl, h⟩ | ⟨values, more, he, hl, hT, hp⟩
        · exact .inl h
        · have hle : ¬ rest.length + t.length < n := by
            have := congrArg List.length he
            simp at this
            omega
          refine .inr ⟨hle, ?_⟩
          rw [he, ← hl, List.take_left, List.drop_left]
          rcases h with h | ⟨hT, h⟩
          · exact .inl h
          · exact .inr ⟨hT, .inl (by rw [hl]; exact h)⟩
        · subst he
          rw [List.append_assoc, ← hl, List.take_left, List.drop_left, List.drop_left]
          refine .inr ⟨by simp; omega, .inr ⟨hT, .inr ⟨by simp, .inl hp⟩⟩⟩

theorem commitsLoop_shift (S : Sha) (mv : UInt8) (pre b t : Bytes) : ∀ (k i : Nat), b.length - i ≤ k →
    commitsLoop S mv ⟨pre ++ b, t⟩ (pre.length + i) = commitsLoop S mv ⟨b, t⟩ i := by
  intro k
  have hl : Slice.len ⟨pre ++ b, t⟩ = pre.length + Slice.len ⟨b, t⟩ := by simp [Slice.len]
  have hb : Slice.len ⟨b, t⟩ = b.length := rfl
  induction k with
  | zero =>
    intro i hk
    rw [commitsLoop, commitsLoop]
    by_cases h : Slice.len ⟨b, t⟩ < i
    · rw [if_pos (by omega), if_pos h]
    · rw [if_neg (by omega), if_neg h, dif_pos (by omega), dif_pos (by omega)]
  | succ k ih =>
    intro i hk
    rw [commitsLoop, commitsLoop]
    by_cases h : Slice.len ⟨b, t⟩ < i
    · rw [if_pos (by omega), if_pos h]
    · rw [if_neg (by omega), if_neg h]
      by_cases he : Slice.len ⟨b, t⟩ = i
      · rw [dif_pos (by omega), dif_pos he]
      · rw [dif_neg (by omega), dif_neg he, Nat.add_assoc, Slice.sub_shift]
        cases Slice.sub ⟨b, t⟩ i (i + 8) with
        | err => rfl
        | panic => rfl
        | ok l =>
          simp only [Res.bind_ok]
          rw [Nat.add_assoc pre.length, Slice.sub_shift, ih _ (by omega)]

theorem commitsLoop_past (S : Sha) (mv : UInt8) (c : Slice) (i : Nat) (h : c.len < i) : commitsLoop S mv c i = .panic := by
  rw [commitsLoop, if_pos h]

theorem commitsLoop_is (S : Sha) (mv : UInt8) (t : Bytes) : ∀ (k : Nat) (b : Bytes), b.length ≤ k →
    (commitsLoop S mv ⟨b, t⟩ 0).Is (CommitsBytes b) (CommitsCrash b t) := by
  intro k
  have nil : (commitsLoop S mv ⟨[], t⟩ 0).Is (CommitsBytes []) (CommitsCrash [] t) := by
    rw [commitsLoop, if_neg (by omega), dif_pos (show Slice.len ⟨[], t⟩ = 0 from rfl)]
    refine (Res.Is.ok _).congr ⟨fun _ => .nil, fun _ => trivial⟩ ⟨False.elim, fun h => ?_⟩
    generalize e : ([] : Bytes) = b at h
    cases h with
    | short _ _ h => exact h e.symm
    | far _ _ _ _ h => exact h e.symm
    | commit _ _ _ _ _ h => exact h e.symm
    | past _ _ _ _ _ h => exact h e.symm
    | next n c rest =>
      have := congrArg List.length e
      simp at this
      omega
  induction k with
  | zero =>
    intro b hk
    have : b = [] := List.length_eq_zero_iff.1 (by omega)
    subst this
    exact nil
  | succ k ih =>
    intro b hk
    by_cases hne : b = []
    · subst hne
      exact nil
    have hpos : 0 < b.length := List.length_pos_iff.2 hne
    rw [commitsLoop, if_neg (by omega), dif_neg (by simp only [Slice.len]; omega)]
    simp only [Nat.zero_add]
    by_cases h8 : (b ++ t).length < 8
    · have : Slice.sub ⟨b, t⟩ 0 8 = .panic := by
        unfold Slice.sub Slice.cap
        rw [if_neg (by simp only; simp at h8; omega)]
      rw [this]
      refine Res.Is.panic.congr ⟨False.elim, fun h => ?_⟩ ⟨fun _ => .short b t hne (by simpa using h8), fun _ => trivial⟩
      cases h with
      | nil => exact hne rfl
      | cons c rest => simp at h8
    · obtain ⟨hs, hn⟩ := split_length (b ++ t) (by omega)
      have e1 : Slice.sub ⟨b, t⟩ 0 8 = .ok ⟨(b ++ t).take 8, (b ++ t).drop 8⟩ := by
        unfold Slice.sub Slice.cap
        rw [if_pos (by simp only; simp at h8; omega)]
        simp
      have e2 : ∀ n, Slice.sub ⟨b, t⟩ 8 (8 + n) =
          if ((b ++ t).drop 8).length < n then .panic else .ok ⟨((b ++ t).drop 8).take n, ((b ++ t).drop 8).drop n⟩ := by
        intro n
        unfold Slice.sub Slice.cap
        simp only
        simp only [List.length_append] at h8
        by_cases h : ((b ++ t).drop 8).length < n
        · rw [if_pos h]
          simp only [List.length_drop, List.length_append] at h
          rw [if_neg (by omega)]
        · rw [if_neg h]
          simp only [List.length_drop, List.length_append] at h
          rw [if_pos (by omega)]
          simp
      rw [e1]
      simp only [Res.bind_ok]
      generalize leNat ((b ++ t).take 8) = n at hs hn
      rw [e2]
      generalize (b ++ t).drop 8 = buf at hs
      have hbuf : buf.length + 8 = b.length + t.length := by
        have := congrArg List.length hs
        simp at this
        omega
      by_cases hfar : buf.length < n
      · rw [if_pos hfar]
        refine Res.Is.panic.congr ⟨False.elim, fun h => ?_⟩ ⟨fun _ => .far n b t buf hne hn hs hfar, fun _ => trivial⟩
        cases h with
        | nil => exact hne rfl
        | cons c rest hc =>
          rw [List.append_assoc, List.append_assoc] at hs
          obtain ⟨h1, rfl⟩ := List.append_inj hs (by simp)
          have := le64_inj hc hn h1
          simp at hfar
          omega
      · rw [if_neg hfar]
        simp only [Res.bind_ok]
        have hl : (buf.take n).length = n := by simp; omega
        by_cases hpast : b.length < 8 + n
        · rw [commitsLoop_past S mv ⟨b, t⟩ (8 + n) hpast]
          have hbytes : ¬ CommitsBytes b := by
            intro h
            cases h with
            | nil => exact hne rfl
            | cons c rest hc =>
              rw [List.append_assoc, List.append_assoc] at hs
              obtain ⟨h1, rfl⟩ := List.append_inj hs (by simp)
              have := le64_inj hc hn h1
              simp at hpast
              omega
          refine Res.Is.congr ((toCommit_is S mv _ _).bind (fun x _ => Res.Is.panic)) (by simp [hbytes]) ?_
          constructor
          · rintro (h | ⟨h, _⟩)
            · exact .commit n b t (buf.take n) (buf.drop n) hne hn hl.symm (by rw [hs, List.take_append_drop]) h
            · exact .past n b t (buf.take n) (buf.drop n) hne hn hl.symm (by rw [hs, List.take_append_drop]) h hpast
          · intro h
            cases h with
            | short _ _ _ h => simp at h8; omega
            | far m _ _ rest _ hm he h =>
              obtain ⟨h1, rfl⟩ := List.append_inj (hs.symm.trans he) (by simp)
              have := le64_inj hn hm h1
              omega
            | commit m _ _ c rest _ hm hl' he h =>
              obtain ⟨h1, rfl⟩ := List.append_inj (hs.symm.trans he) (by simp)
              have := le64_inj hn hm h1
              subst this
              rw [hl', List.take_left, List.drop_left]
              exact .inl h
            | past m _ _ c rest _ hm hl' he h =>
              obtain ⟨h1, rfl⟩ := List.append_inj (hs.symm.trans he) (by simp)
              have := le64_inj hn hm h1
              subst this
              rw [hl', List.take_left, List.drop_left]
              exact .inr ⟨h, trivial⟩
            | next m c rest _ hm hl' h =>
              rw [List.append_assoc, List.append_assoc] at hs
              obtain ⟨h1, rfl⟩ := List.append_inj hs (by simp)
              have := le64_inj hm hn h1
              simp at hpast
              omega
        · have hshift : commitsLoop S mv ⟨b, t⟩ (8 + n) = commitsLoop S mv ⟨b.drop (8 + n), t⟩ 0 := by
            have := commitsLoop_shift S mv (b.take (8 + n)) (b.drop (8 + n)) t _ 0 (Nat.le_refl _)
            rw [List.take_append_drop] at this
            rw [← this]
            congr 1
            simp
            omega
          rw [hshift]
          have hih := ih (b.drop (8 + n)) (by simp; omega)
          -- the bytes of the commit lie in the given bytes
          have hb8 : b = le64 n ++ b.drop 8 ∧ buf = b.drop 8 ++ t := by
            have hd : b ++ t = b.take 8 ++ (b.drop 8 ++ t) := by rw [← List.append_assoc, List.take_append_drop]
            rw [hd] at hs
            obtain ⟨h1, h2⟩ := List.append_inj hs (by simp; omega)
            refine ⟨?_, h2.symm⟩
            rw [← h1, List.take_append_drop]
          obtain ⟨hb8, hbf⟩ := hb8
          have htake : buf.take n = (b.drop 8).take n := by
            rw [hbf, List.take_append_of_le_length (by simp; omega)]
          have hdrop : b.drop (8 + n) = (b.drop 8).drop n := by rw [List.drop_drop]
          have hb : b = le64 n ++ (buf.take n ++ b.drop (8 + n)) := by
            rw [htake, hdrop, List.take_append_drop]
            exact hb8
          refine Res.Is.congr ((toCommit_is S mv _ _).bind (fun x _ => hih.bind (fun xs _ => Res.Is.ok (x :: xs)))) ?_ ?_
          · constructor
            · rintro ⟨h1, h2, -⟩
              have := CommitsBytes.cons (buf.take n) (b.drop (8 + n)) (by omega) h1 h2
              rw [hl, ← hb] at this
              exact this
            · intro h
              have key : ∀ b', CommitsBytes b' → b = b' → CommitBytes (buf.take n) ∧ CommitsBytes (b.drop (8 + n)) ∧ True := ?_
              · exact key b h rfl
              intro b' h e
              cases h with
              | nil => exact absurd e hne
              | cons c rest hc h1 h2 =>
                obtain ⟨e1, e2⟩ := List.append_inj (hb.symm.trans e) (by simp)
                have := le64_inj hn hc e1
                obtain ⟨e3, e4⟩ := List.append_inj e2 (by omega)
                rw [e3, e4]
                exact ⟨h1, h2, trivial⟩
          · constructor
            · rintro (h | ⟨h, h' | ⟨_, h'⟩⟩)
              · exact .commit n b t (buf.take n) (buf.drop n) hne hn hl.symm (by rw [hs, List.take_append_drop]) h
              · have := CommitsCrash.next n (buf.take n) (b.drop (8 + n)) t hn hl.symm h h'
                rw [← hb] at this
                exact this
              · exact h'.elim
            · intro h
              have key : ∀ b', CommitsCrash b' t → b = b' → CommitCrashes (buf.take n) (buf.drop n) ∨ CommitBytes (buf.take n) ∧
                  (CommitsCrash (b.drop (8 + n)) t ∨ CommitsBytes (b.drop (8 + n)) ∧ False) := ?_
              · exact key b h rfl
              intro b' h e
              cases h with
              | short _ _ _ h => subst e; simp at h8; omega
              | far m _ _ rest _ hm he h =>
                subst e
                obtain ⟨h1, rfl⟩ := List.append_inj (hs.symm.trans he) (by simp)
                have := le64_inj hn hm h1
                omega
              | commit m _ _ c rest _ hm hl' he h =>
                subst e
                obtain ⟨h1, rfl⟩ := List.append_inj (hs.symm.trans he) (by simp)
                have := le64_inj hn hm h1
                subst this
                rw [hl', List.take_left, List.drop_left]
                exact .inl h
              | past m _ _ c rest _ hm hl' he h hlt =>
                subst e
                obtain ⟨h1, rfl⟩ := List.append_inj (hs.symm.trans he) (by simp)
                have := le64_inj hn hm h1
                omega
              | next m c rest _ hm hl' h1 h2 =>
                obtain ⟨e1, e2⟩ := List.append_inj (hb.symm.trans e) (by simp)
                have := le64_inj hn hm e1
                obtain ⟨e3, e4⟩ := List.append_inj e2 (by omega)
                rw [e3, e4]
                exact .inr ⟨h1, .inl h2⟩

theorem CommitBytes.length {b : Bytes} (h : CommitBytes b) : 216 ≤ b.length := by
  obtain ⟨time, values, rest, ht, _, ⟨hd, l, r, h64, _, h1, h2, rfl⟩, _, rfl⟩ := h
  have := h1.length
  have := h2.length
  simp
  omega

theorem toCommits_is (S : Sha) (mv : UInt8) (b t : Bytes) :
    (toCommits S mv ⟨b, t⟩).Is (216 ≤ b.length ∧ CommitsBytes b) (216 ≤ b.length ∧ CommitsCrash b t) := by
  unfold toCommits
  by_cases h : b.length < 216
  · rw [if_pos (by simpa [Slice.len, commitMinSize] using h)]
    exact Res.Is.err.congr (by simp; omega) (by simp; omega)
  · rw [if_neg (by simpa [Slice.len, commitMinSize] using h)]
    have hl := commitsLoop_is S mv t _ b (Nat.le_refl _)
    refine Res.Is.congr (hl.bind (A' := True) (C' := False) (fun list hlist => ?_)) (by simp; omega) (by simp; omega)
    unfold commitsNow
    have : list ≠ [] := by
      rintro rfl
      rw [commitsLoop, if_neg (by omega), dif_neg (by simp only [Slice.len]; omega)] at hlist
      cases e1 : Slice.sub ⟨b, t⟩ 0 (0 + 8) with
      | err => rw [e1] at hlist; cases hlist
      | panic => rw [e1] at hlist; cases hlist
      | ok l =>
        rw [e1] at hlist
        simp only [Res.bind_ok] at hlist
        cases e2 : Slice.sub ⟨b, t⟩ (0 + 8) (0 + 8 + leNat l.vis) with
        | err => rw [e2] at hlist; cases hlist
        | panic => rw [e2] at hlist; cases hlist
        | ok s =>
          rw [e2] at hlist
          simp only [Res.bind_ok] at hlist
          cases e3 : toCommit S mv s with
          | err => rw [e3] at hlist; cases hlist
          | panic => rw [e3] at hlist; cases hlist
          | ok x =>
            rw [e3] at hlist
            simp only [Res.bind_ok] at hlist
            cases e4 : commitsLoop S mv ⟨b, t⟩ (0 + 8 + leNat l.vis) with
            | err => rw [e4] at hlist; cases hlist
            | panic => rw [e4] at hlist; cases hlist
            | ok xs =>
              rw [e4] at hlist
              simp only [Res.bind_ok, Res.pure_eq] at hlist
              injection hlist with hlist
              cases hlist
    rw [if_neg (by simpa using this)]
    exact Res.Is.ok _

end Ref
end Rodkina
