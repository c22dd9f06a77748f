import Verif.CrashLemmas2
/-!
# Content keys, references, compact trees and contents: what is accepted and what crashes
-/

namespace Rodkina

open DecodeSpec CrashSpec

namespace Ref

theorem toContentKey_is (S : Sha) (b t : Bytes) : (toContentKey S ⟨b, t⟩).Is (KeyBytes b) False := by
  refine ⟨?_, ⟨fun h => toContentKey_no_panic S _ h, False.elim⟩⟩
  unfold toContentKey
  by_cases hl : b.length = 152
  · rw [if_neg (by simpa [Slice.len, contentKeySize] using hl)]
    have hd : b = b.take 64 ++ ((b.drop 64).take 8 ++ ((b.drop 72).take 8 ++ ((b.drop 80).take 8 ++ b.drop 88))) := by
      rw [show b.drop 88 = (b.drop 80).drop 8 by rw [List.drop_drop], List.take_append_drop,
        show b.drop 80 = (b.drop 72).drop 8 by rw [List.drop_drop], List.take_append_drop,
        show b.drop 72 = (b.drop 64).drop 8 by rw [List.drop_drop], List.take_append_drop, List.take_append_drop]
    have l1 : (b.take 64).length = 64 := by simp; omega
    have l2 : ((b.drop 64).take 8).length = 8 := by simp; omega
    have l3 : ((b.drop 72).take 8).length = 8 := by simp; omega
    have l4 : ((b.drop 80).take 8).length = 8 := by simp; omega
    have l5 : (b.drop 88).length = 64 := by simp; omega
    generalize b.take 64 = hash at hd l1
    generalize (b.drop 64).take 8 = kind at hd l2
    generalize (b.drop 72).take 8 = start at hd l3
    generalize (b.drop 80).take 8 = len at hd l4
    generalize b.drop 88 = commit at hd l5
    subst hd
    have e1 : Slice.sub ⟨hash ++ (kind ++ (start ++ (len ++ commit))), t⟩ 0 64 = .ok ⟨hash, (kind ++ (start ++ (len ++ commit))) ++ t⟩ := by
      have := Slice.sub_zero_append hash (kind ++ (start ++ (len ++ commit))) t
      rwa [l1] at this
    have e2 : Slice.sub ⟨hash ++ (kind ++ (start ++ (len ++ commit))), t⟩ 64 72 = .ok ⟨kind, (start ++ (len ++ commit)) ++ t⟩ := by
      have := Slice.sub_append hash kind (start ++ (len ++ commit)) t
      rwa [l1, l2, List.append_assoc] at this
    have e3 : Slice.sub ⟨hash ++ (kind ++ (start ++ (len ++ commit))), t⟩ 72 88 = .ok ⟨start ++ len, commit ++ t⟩ := by
      have := Slice.sub_append (hash ++ kind) (start ++ len) commit t
      simpa [l1, l2, l3, l4] using this
    have e4 : Slice.sub ⟨hash ++ (kind ++ (start ++ (len ++ commit))), t⟩ 88 152 = .ok ⟨commit, t⟩ := by
      have := Slice.sub_append (hash ++ kind ++ start ++ len) commit [] t
      simpa [l1, l2, l3, l4, l5] using this
    have e5 : toPointer ⟨start ++ len, commit ++ t⟩ = pointerNow (some (leNat start)) (leNat len) := by
      unfold toPointer
      rw [if_neg (by simp [Slice.len, pointerSize, l3, l4])]
      have a := Slice.sub_zero_append start len (commit ++ t)
      have b := Slice.from_append start len (commit ++ t)
      rw [l3] at a b
      rw [a, b]
      rfl
    rw [e1, e2, e3, e4]
    simp only [Res.bind_ok, e5, pointerNow]
    have hk : KeyBytes (hash ++ (kind ++ (start ++ (len ++ commit)))) ↔ leNat len ≠ 0 := by
      constructor
      · rintro ⟨hash', kind', start', commit', n, h1, h2, h3, hn, h0, h5, he⟩
        obtain ⟨_, he⟩ := List.append_inj he (by omega)
        obtain ⟨_, he⟩ := List.append_inj he (by omega)
        obtain ⟨_, he⟩ := List.append_inj he (by omega)
        obtain ⟨e, _⟩ := List.append_inj he (by simp [l4])
        rw [e, leNat_le64 n hn]
        exact h0
      · intro h0
        refine ⟨hash, kind, start, commit, leNat len, l1, l2, l3, ?_, h0, l5, ?_⟩
        · have := leNat_lt len
          rw [l4] at this
          exact this
        · rw [le64_leNat len l4]
    rw [hk]
    by_cases h0 : leNat len ≤ 0
    · rw [if_pos h0]
      exact ⟨fun ⟨_, h⟩ => (by cases h), fun h => absurd (by omega) h⟩
    · rw [if_neg h0]
      exact ⟨fun _ => by omega, fun _ => ⟨_, rfl⟩⟩
  · rw [if_pos (by simpa [Slice.len, contentKeySize] using hl)]
    refine ⟨fun ⟨_, h⟩ => (by cases h), ?_⟩
    rintro ⟨hash', kind', start', commit', n, h1, h2, h3, hn, h0, h5, rfl⟩
    simp at hl
    omega

theorem keyBytes_length {b : Bytes} (h : KeyBytes b) : b.length = 152 := by
  obtain ⟨hash', kind', start', commit', n, h1, h2, h3, hn, h0, h5, rfl⟩ := h
  simp
  omega

theorem contentKeysLoop_is (S : Sha) (b t : Bytes) : ∀ (n i : Nat), (contentKeysLoop S ⟨b, t⟩ n i).Is
    (∃ (keys : List Bytes) (more : Bytes), keys.length = n ∧ (∀ k ∈ keys, KeyBytes k) ∧ (b ++ t).drop (8 + i * 152) = keys.flatten ++ more)
    (∃ (keys : List Bytes) (more : Bytes), keys.length < n ∧ more.length < 152 ∧ (∀ k ∈ keys, KeyBytes k) ∧
      (b ++ t).drop (8 + i * 152) = keys.flatten ++ more)
  | 0, i => by
    unfold contentKeysLoop
    refine (Res.Is.ok _).congr ⟨fun _ => ⟨[], _, rfl, by simp, rfl⟩, fun _ => trivial⟩ ⟨False.elim, ?_⟩
    rintro ⟨keys, more, h, _⟩
    omega
  | n + 1, i => by
    unfold contentKeysLoop
    have ih := contentKeysLoop_is S b t n (i + 1)
    have hdd : (b ++ t).drop (8 + (i + 1) * 152) = ((b ++ t).drop (8 + i * 152)).drop 152 := by
      rw [List.drop_drop]
      congr 1
      omega
    rw [hdd] at ih
    have e : Slice.sub ⟨b, t⟩ (8 + i * contentKeySize) (8 + i * contentKeySize + contentKeySize) =
        if ((b ++ t).drop (8 + i * 152)).length < 152 then .panic
        else .ok ⟨((b ++ t).drop (8 + i * 152)).take 152, ((b ++ t).drop (8 + i * 152)).drop 152⟩ := by
      unfold Slice.sub Slice.cap
      rw [show contentKeySize = 152 from rfl]
      simp only [List.length_drop, List.length_append]
      by_cases h : b.length + t.length - (8 + i * 152) < 152
      · rw [if_pos h, if_neg (by omega)]
      · rw [if_neg h, if_pos (by omega)]
        congr 2
        · rw [Nat.add_sub_cancel_left]
        · rw [List.drop_drop]
    rw [e]
    generalize (b ++ t).drop (8 + i * 152) = buf at ih
    by_cases hs : buf.length < 152
    · rw [if_pos hs]
      refine Res.Is.panic.congr ⟨False.elim, ?_⟩ ⟨fun _ => ⟨[], buf, by simp, hs, by simp, rfl⟩, fun _ => trivial⟩
      rintro ⟨keys, more, hl, hk, rfl⟩
      cases keys with
      | nil => simp at hl
      | cons k ks =>
        have := keyBytes_length (hk k (by simp))
        simp at hs
        omega
    · rw [if_neg hs]
      simp only [Res.bind_ok]
      refine Res.Is.congr ((toContentKey_is S _ _).bind fun x _ => ih.bind fun xs _ => Res.Is.ok (x :: xs)) ?_ ?_
      · constructor
        · rintro ⟨h1, ⟨keys, more, hl, hk, he⟩, -⟩
          refine ⟨buf.take 152 :: keys, more, by simp [hl], ?_, ?_⟩
          · intro k hm
            cases hm with
            | head => exact h1
            | tail _ hm => exact hk k hm
          · rw [List.flatten_cons, List.append_assoc, ← he, List.take_append_drop]
        · rintro ⟨keys, more, hl, hk, he⟩
          cases keys with
          | nil => simp at hl
          | cons k ks =>
            have h152 := keyBytes_length (hk k (by simp))
            rw [he, List.flatten_cons, List.append_assoc, List.take_left' h152, List.drop_left' h152]
            exact ⟨hk k (by simp), ⟨ks, more, by simpa using hl, fun k' hm => hk k' (by simp [hm]), rfl⟩, trivial⟩
      · constructor
        · rintro (h | ⟨h1, ⟨keys, more, hl, hm, hk, he⟩ | ⟨_, h⟩⟩)
          · exact h.elim
          · refine ⟨buf.take 152 :: keys, more, by simp [hl], hm, ?_, ?_⟩
            · intro k hm
              cases hm with
              | head => exact h1
              | tail _ hm => exact hk k hm
            · rw [List.flatten_cons, List.append_assoc, ← he, List.take_append_drop]
          · exact h.elim
        · rintro ⟨keys, more, hl, hm, hk, he⟩
          cases keys with
          | nil =>
            simp at he
            subst he
            omega
          | cons k ks =>
            have h152 := keyBytes_length (hk k (by simp))
            rw [he, List.flatten_cons, List.append_assoc, List.take_left' h152, List.drop_left' h152]
            exact .inr ⟨hk k (by simp), .inl ⟨ks, more, by simpa using hl, hm, fun k' hm => hk k' (by simp [hm]), rfl⟩⟩

theorem toContentKeys_is (S : Sha) (b t : Bytes) : (toContentKeys S ⟨b, t⟩).Is (KeysBytes b t) (KeysCrash b t) := by
  unfold toContentKeys
  by_cases h : b.length < 160
  · rw [if_pos (by simpa [Slice.len, contentKeySize] using h)]
    refine Res.Is.err.congr ⟨False.elim, ?_⟩ ⟨False.elim, ?_⟩
    · rintro ⟨keys, more, h', _⟩
      omega
    · rintro ⟨n, keys, more, h', _⟩
      omega
  · rw [if_neg (by simpa [Slice.len, contentKeySize] using h)]
    obtain ⟨hs, hn⟩ := split_length b (by omega)
    generalize leNat (b.take 8) = n at hs hn
    generalize b.drop 8 = rest at hs
    subst hs
    rw [Slice.sub_field]
    simp only [Res.bind_ok, leNat_le64 n hn]
    have hd : (le64 n ++ rest ++ t).drop (8 + 0 * 152) = rest ++ t := by
      rw [List.append_assoc, List.drop_left' (by simp)]
    by_cases h63 : n < 2 ^ 63
    · rw [if_pos h63]
      have hl := contentKeysLoop_is S (le64 n ++ rest) t n 0
      rw [hd] at hl
      have hlen : ∀ list, contentKeysLoop S ⟨le64 n ++ rest, t⟩ n 0 = .ok list → list.length = n := by
        have gen : ∀ (c : Slice) n i list, contentKeysLoop S c n i = .ok list → list.length = n := by
          intro c n
          induction n with
          | zero =>
            intro i list h
            unfold contentKeysLoop at h
            injection h with h
            subst h
            rfl
          | succ n ih =>
            intro i list h
            unfold contentKeysLoop at h
            cases e1 : c.sub (8 + i * contentKeySize) (8 + i * contentKeySize + contentKeySize) with
            | err => rw [e1] at h; cases h
            | panic => rw [e1] at h; cases h
            | ok s =>
              rw [e1] at h
              simp only [Res.bind_ok] at h
              cases e2 : toContentKey S s with
              | err => rw [e2] at h; cases h
              | panic => rw [e2] at h; cases h
              | ok x =>
                rw [e2] at h
                simp only [Res.bind_ok] at h
                cases e3 : contentKeysLoop S c n (i + 1) with
                | err => rw [e3] at h; cases h
                | panic => rw [e3] at h; cases h
                | ok xs =>
                  rw [e3] at h
                  simp only [Res.bind_ok, Res.pure_eq] at h
                  injection h with h
                  subst h
                  simp [ih _ _ e3]
        exact gen _ n 0
      refine Res.Is.congr (hl.bind (A' := n ≠ 0) (C' := False) (fun list hlist => ?_)) ?_ ?_
      · have := hlen list hlist
        unfold contentKeysNow
        cases list with
        | nil =>
          have h0 : n = 0 := this.symm
          rw [if_pos List.isEmpty_nil]
          exact Res.Is.err.congr (by simp [h0]) Iff.rfl
        | cons x xs =>
          have h0 : n ≠ 0 := by rw [← this]; simp
          rw [if_neg (by simp)]
          exact (Res.Is.ok _).congr (by simp [h0]) Iff.rfl
      · constructor
        · rintro ⟨⟨keys, more, hl, hk, he⟩, h0⟩
          refine ⟨keys, more, by omega, ?_, by omega, hk, ?_⟩
          · rintro rfl
            exact h0 hl.symm
          · rw [hl, List.append_assoc, he]
        · rintro ⟨keys, more, _, hne, hlt, hk, he⟩
          rw [List.append_assoc] at he
          obtain ⟨e1, e2⟩ := List.append_inj he (by simp)
          have := le64_inj hn (by omega) e1
          exact ⟨⟨keys, more, this.symm, hk, e2⟩, by rw [this]; exact fun h => hne (List.length_eq_zero_iff.1 h)⟩
      · constructor
        · rintro (⟨keys, more, hl, hm, hk, he⟩ | ⟨_, h⟩)
          · exact ⟨n, keys, more, by omega, h63, hl, hm, hk, by rw [List.append_assoc, he]⟩
          · exact h.elim
        · rintro ⟨m, keys, more, _, hm, hl, hmore, hk, he⟩
          rw [List.append_assoc] at he
          obtain ⟨e1, e2⟩ := List.append_inj he (by simp)
          have := le64_inj hn (by omega) e1
          subst this
          exact .inl ⟨keys, more, hl, hmore, hk, e2⟩
    · rw [if_neg h63]
      refine Res.Is.congr (A := False) (C := False) ?_ ⟨False.elim, ?_⟩ ⟨False.elim, ?_⟩
      · exact Res.Is.err
      · rintro ⟨keys, more, _, hne, hlt, hk, he⟩
        rw [List.append_assoc] at he
        obtain ⟨e1, e2⟩ := List.append_inj he (by simp)
        have := le64_inj hn (by omega) e1
        omega
      · rintro ⟨m, keys, more, _, hm, hl, hmore, hk, he⟩
        rw [List.append_assoc] at he
        obtain ⟨e1, e2⟩ := List.append_inj he (by simp)
        have := le64_inj hn (by omega) e1
        omega

theorem section_is (c : Slice) (start : Nat) (n : Nat) (hn : n < 2 ^ 64) (l : Slice) (hl : c.sub start (start + 8) = .ok l) (hv : l.vis = le64 n) :
    section' c start = if 2 ^ 63 ≤ n + (start + 8) then .panic else if c.len < n + (start + 8) then .err
      else (c.sub (start + 8) (n + (start + 8))) >>= fun s => pure (s, n + (start + 8)) := by
  unfold section'
  rw [hl]
  simp only [Res.bind_ok, hv, leNat_le64 n hn]

theorem toReference_is (S : Sha) (mv : UInt8) (b t : Bytes) :
    (toReference S mv ⟨b, t⟩).Is (ReferenceBytes b t) (ReferenceCrashes b t) := by
  unfold toReference
  by_cases hlen : b.length < 360
  · rw [if_pos (by simpa [Slice.len, minReferenceSize, contentKeySize, commitMinSize] using hlen)]
    refine Res.Is.err.congr ⟨False.elim, ?_⟩ ⟨False.elim, ?_⟩
    · rintro ⟨keys, commits, more, _, ⟨_, _, h160, _⟩, h216, _, rfl⟩
      simp at hlen
      omega
    · rintro ⟨h, _⟩
      omega
  · rw [if_neg (by simpa [Slice.len, minReferenceSize, contentKeySize, commitMinSize] using hlen)]
    obtain ⟨hs, hn⟩ := split_length b (by omega)
    generalize leNat (b.take 8) = n at hs hn
    generalize b.drop 8 = rest at hs
    subst hs
    rw [section_is _ 0 n hn _ (Slice.sub_field n rest t) rfl]
    simp only [Nat.zero_add]
    -- what the specification says of these bytes
    have hB : ReferenceBytes (le64 n ++ rest) t ↔ ∃ keys commits more : Bytes, keys.length = n ∧
        16 + keys.length + commits.length < 2 ^ 63 ∧ KeysBytes keys (le64 commits.length ++ (commits ++ (more ++ t))) ∧
        216 ≤ commits.length ∧ CommitsBytes commits ∧ rest = keys ++ (le64 commits.length ++ (commits ++ more)) := by
      constructor
      · rintro ⟨keys, commits, more, h1, h2, h3, h4, he⟩
        obtain ⟨e1, e2⟩ := List.append_inj he (by simp)
        exact ⟨keys, commits, more, (le64_inj hn (by omega) e1).symm, h1, h2, h3, h4, e2⟩
      · rintro ⟨keys, commits, more, hl, h1, h2, h3, h4, rfl⟩
        exact ⟨keys, commits, more, h1, h2, h3, h4, by rw [hl]⟩
    have hC : ReferenceCrashes (le64 n ++ rest) t ↔ (2 ^ 63 ≤ n + 8 ∨ ∃ keys more, rest = keys ++ more ∧ keys.length = n ∧
      (KeysCrash keys (more ++ t) ∨
        KeysBytes keys (more ++ t) ∧
          (more.length + t.length < 8 ∨ ∃ m rest', m < 2 ^ 64 ∧ more ++ t = le64 m ++ rest' ∧
            (2 ^ 63 ≤ m + (8 + n + 8) ∨
              ∃ commits rest'', more = le64 m ++ (commits ++ rest'') ∧ m = commits.length ∧ 216 ≤ m ∧
                CommitsCrash commits (rest'' ++ t))))) := by
      constructor
      · rintro ⟨_, n', rest', hn', he, h⟩
        obtain ⟨e1, rfl⟩ := List.append_inj he (by simp)
        have := le64_inj hn hn' e1
        subst this
        exact h
      · exact fun h => ⟨by omega, n, rest, hn, rfl, h⟩
    rw [hB, hC]
    by_cases hbig : 2 ^ 63 ≤ n + 8
    · rw [if_pos hbig]
      refine Res.Is.panic.congr ⟨False.elim, ?_⟩ ⟨fun _ => .inl hbig, fun _ => trivial⟩
      rintro ⟨keys, commits, more, hl, h1, _⟩
      omega
    · rw [if_neg hbig]
      by_cases hfit : rest.length < n
      · rw [if_pos (by simp [Slice.len]; omega)]
        refine Res.Is.err.congr ⟨False.elim, ?_⟩ ⟨False.elim, ?_⟩
        · rintro ⟨keys, commits, more, hl, _, _, _, _, rfl⟩
          simp at hfit
          omega
        · rintro (h | ⟨keys, more, rfl, hl, _⟩)
          · omega
          · simp at hfit
            omega
      · rw [if_neg (by simp [Slice.len]; omega), Nat.add_comm n 8, Slice.sub_past (le64_length n), if_neg (by omega)]
        simp only [Res.bind_ok, Res.pure_eq]
        have hkl : (rest.take n).length = n := by simp; omega
        have hrest : rest = rest.take n ++ rest.drop n := (List.take_append_drop _ _).symm
        have htk : (rest ++ t).take n = rest.take n := List.take_append_of_le_length (by omega)
        have hdr : (rest ++ t).drop n = rest.drop n ++ t := List.drop_append_of_le_length (by omega)
        rw [htk, hdr]
        generalize rest.take n = keys at hkl hrest
        generalize rest.drop n = more at hrest
        clear htk hdr
        subst hrest
        -- the second section
        have h2 : (section' ⟨le64 n ++ (keys ++ more), t⟩ (8 + n) >>= fun m => toCommits S mv m.1).Is
            (∃ commits rest'' : Bytes, 16 + n + commits.length < 2 ^ 63 ∧ 216 ≤ commits.length ∧ CommitsBytes commits ∧
              more = le64 commits.length ++ (commits ++ rest''))
            (more.length + t.length < 8 ∨ ∃ m rest', m < 2 ^ 64 ∧ more ++ t = le64 m ++ rest' ∧
            (2 ^ 63 ≤ m + (8 + n + 8) ∨
              ∃ commits rest'', more = le64 m ++ (commits ++ rest'') ∧ m = commits.length ∧ 216 ≤ m ∧
                CommitsCrash commits (rest'' ++ t))) := by
          have hpre : (le64 n ++ keys).length = 8 + n := by simp [hkl]
          rw [← List.append_assoc]
          have e1 := Slice.sub_past hpre 8 more t
          by_cases h8 : more.length + t.length < 8
          · rw [if_pos h8] at e1
            unfold section'
            rw [e1]
            refine Res.Is.panic.congr ⟨False.elim, ?_⟩ ⟨fun _ => .inl h8, fun _ => trivial⟩
            rintro ⟨commits, rest'', _, _, _, rfl⟩
            simp at h8
            omega
          · rw [if_neg h8] at e1
            obtain ⟨hs, hm⟩ := split_length (more ++ t) (by simp; omega)
            rw [section_is _ (8 + n) _ hm _ e1 (le64_leNat _ (by simp; omega)).symm]
            generalize leNat ((more ++ t).take 8) = m at hs hm
            generalize (more ++ t).drop 8 = rest' at hs
            by_cases hbig' : 2 ^ 63 ≤ m + (8 + n + 8)
            · rw [if_pos hbig']
              refine Res.Is.panic.congr ⟨False.elim, ?_⟩ ⟨fun _ => .inr ⟨m, rest', hm, hs, .inl hbig'⟩, fun _ => trivial⟩
              rintro ⟨commits, rest'', h, _, _, rfl⟩
              rw [List.append_assoc] at hs
              obtain ⟨e, _⟩ := List.append_inj hs (by simp)
              have := le64_inj (by omega) hm e
              omega
            · rw [if_neg hbig']
              have hml : Slice.len ⟨le64 n ++ keys ++ more, t⟩ = 8 + n + more.length := by simp [Slice.len, hkl]; omega
              by_cases hfit' : more.length < 8 + m
              · rw [if_pos (by rw [hml]; omega)]
                refine Res.Is.err.congr ⟨False.elim, ?_⟩ ⟨False.elim, ?_⟩
                · rintro ⟨commits, rest'', h, _, _, rfl⟩
                  rw [List.append_assoc] at hs
                  obtain ⟨e, _⟩ := List.append_inj hs (by simp)
                  have := le64_inj (by omega) hm e
                  simp at hfit'
                  omega
                · rintro (h | ⟨m', r, hm', he, h⟩)
                  · omega
                  · obtain ⟨e, rfl⟩ := List.append_inj (hs.symm.trans he) (by simp)
                    have := le64_inj hm hm' e
                    subst this
                    rcases h with h | ⟨commits, rest'', rfl, hc, _⟩
                    · omega
                    · simp at hfit'
                      omega
              · rw [if_neg (by rw [hml]; omega)]
                have hm8 : more = le64 m ++ more.drop 8 := by
                  have hd : more ++ t = more.take 8 ++ (more.drop 8 ++ t) := by rw [← List.append_assoc, List.take_append_drop]
                  rw [hd] at hs
                  obtain ⟨h1, _⟩ := List.append_inj hs (by simp; omega)
                  rw [← h1, List.take_append_drop]
                have hlm : more.length = 8 + (more.drop 8).length := by simp; omega
                generalize more.drop 8 = tl at hm8 hlm
                subst hm8
                have hpre' : (le64 n ++ keys ++ le64 m).length = 8 + n + 8 := by simp [hkl]; omega
                rw [← List.append_assoc, Nat.add_comm m, Slice.sub_past hpre', if_neg (by omega)]
                simp only [Res.bind_ok, Res.pure_eq]
                have htk : (tl ++ t).take m = tl.take m := List.take_append_of_le_length (by omega)
                have hdr : (tl ++ t).drop m = tl.drop m ++ t := List.drop_append_of_le_length (by omega)
                rw [htk, hdr]
                have htl : (tl.take m).length = m := by simp; omega
                refine (toCommits_is S mv _ _).congr ?_ ?_
                · constructor
                  · rintro ⟨h1, h2⟩
                    refine ⟨tl.take m, tl.drop m, by omega, h1, h2, ?_⟩
                    rw [htl, List.take_append_drop]
                  · rintro ⟨commits, rest'', h1, h2, h3, he⟩
                    obtain ⟨e, rfl⟩ := List.append_inj he (by simp)
                    have := le64_inj hm (by omega) e
                    subst this
                    rw [List.take_left]
                    exact ⟨h2, h3⟩
                · constructor
                  · rintro ⟨h1, h2⟩
                    refine .inr ⟨m, _, hm, by rw [List.append_assoc], .inr ⟨tl.take m, tl.drop m, ?_, htl.symm, by omega, h2⟩⟩
                    rw [List.take_append_drop]
                  · rintro (h | ⟨m', r, hm', he, h⟩)
                    · omega
                    · obtain ⟨e, rfl⟩ := List.append_inj (hs.symm.trans he) (by simp)
                      have := le64_inj hm hm' e
                      subst this
                      rcases h with h | ⟨commits, rest'', he, hc, h216, h⟩
                      · omega
                      · obtain ⟨_, rfl⟩ := List.append_inj he (by simp)
                        rw [hc, List.take_left, List.drop_left]
                        exact ⟨by omega, h⟩
        have main := (toContentKeys_is S keys (more ++ t)).bind (fun k (_ : toContentKeys S ⟨keys, more ++ t⟩ = .ok k) =>
          h2.bind (fun commits _ => Res.Is.ok (⟨k, commits⟩ : Reference)))
        have hassoc : ∀ k, ((section' ⟨le64 n ++ (keys ++ more), t⟩ (8 + n) >>= fun m => toCommits S mv m.1) >>= fun commits =>
            Res.ok (⟨k, commits⟩ : Reference)) = (section' ⟨le64 n ++ (keys ++ more), t⟩ (8 + n) >>= fun m => toCommits S mv m.1 >>= fun commits =>
            Res.ok (⟨k, commits⟩ : Reference)) := by
          intro k
          cases section' ⟨le64 n ++ (keys ++ more), t⟩ (8 + n) <;> rfl
        simp only [hassoc] at main
        refine main.congr ?_ ?_
        · constructor
          · rintro ⟨h1, ⟨commits, rest'', h2, h3, h4, rfl⟩, -⟩
            exact ⟨keys, commits, rest'', hkl, by omega, by simpa [List.append_assoc] using h1, h3, h4, rfl⟩
          · rintro ⟨keys', commits, rest'', hl, h1, hk2, h3, h4, he⟩
            obtain ⟨rfl, rfl⟩ := List.append_inj he (by omega)
            exact ⟨by simpa [List.append_assoc] using hk2, ⟨commits, rest'', by omega, h3, h4, rfl⟩, trivial⟩
        · constructor
          · rintro (h | ⟨h1, h | ⟨_, h⟩⟩)
            · exact .inr ⟨keys, more, rfl, hkl, .inl h⟩
            · exact .inr ⟨keys, more, rfl, hkl, .inr ⟨h1, h⟩⟩
            · exact h.elim
          · rintro (h | ⟨keys', more', he, hl, h⟩)
            · omega
            · obtain ⟨rfl, rfl⟩ := List.append_inj he (by omega)
              rcases h with h | ⟨h1, h⟩
              · exact .inl h
              · exact .inr ⟨h1, .inl h⟩

/-! ## Contents -/

theorem toContentInstance_is (S : Sha) (b t : Bytes) : (toContentInstance S ⟨b, t⟩).Is (73 ≤ b.length) False := by
  unfold toContentInstance
  by_cases h : b.length < 73
  · rw [if_pos (by simpa [Slice.len, minContentSize] using h)]
    exact Res.Is.err.congr (by simp; omega) Iff.rfl
  · rw [if_neg (by simpa [Slice.len, minContentSize] using h)]
    obtain ⟨t1, e1⟩ := Slice.sub_in ⟨b, t⟩ (a := 0) (b := 64) (by omega) (by show 64 ≤ b.length; omega)
    obtain ⟨t2, e2⟩ := Slice.sub_in ⟨b, t⟩ (a := 64) (b := 72) (by omega) (by show 72 ≤ b.length; omega)
    have e3 := Slice.from_in ⟨b, t⟩ (a := 72) (by show 72 ≤ b.length; omega)
    rw [e1, e2, e3]
    simp only [Res.bind_ok, contentNow]
    rw [if_neg (by simp; omega)]
    exact (Res.Is.ok _).congr (by simp; omega) Iff.rfl

theorem contentsLoop_is (S : Sha) (t : Bytes) : ∀ (k : Nat) (b : Bytes), b.length ≤ k →
    (contentsLoop S ⟨b, t⟩).Is (ContentsBytes b) (ContentsCrash b t) := by
  intro k
  have nil : (contentsLoop S ⟨[], t⟩).Is (ContentsBytes []) (ContentsCrash [] t) := by
    rw [contentsLoop_eq, if_pos (show Slice.len ⟨[], t⟩ ≤ 0 from Nat.le_refl 0)]
    refine (Res.Is.ok _).congr ⟨fun _ => .nil, fun _ => trivial⟩ ⟨False.elim, fun h => ?_⟩
    generalize e : ([] : Bytes) = b at h
    cases h with
    | short _ _ h => exact h e.symm
    | far _ _ _ _ h => exact h e.symm
    | past _ _ _ _ h => exact h e.symm
    | next n c rest =>
      have := congrArg List.length e
      simp at this
      omega
  induction k with
  | zero =>
    intro b hk
    have : b = [] := List.length_eq_zero_iff.1 (by omega)
    subst this
    exact nil
  | succ k ih =>
    intro b hk
    by_cases hne : b = []
    · subst hne
      exact nil
    have hpos : 0 < b.length := List.length_pos_iff.2 hne
    rw [contentsLoop_eq, if_neg (show ¬ Slice.len ⟨b, t⟩ ≤ 0 by simp only [Slice.len]; omega)]
    by_cases h8 : (b ++ t).length < 8
    · have : Slice.sub ⟨b, t⟩ 0 8 = .panic := by
        unfold Slice.sub Slice.cap
        rw [if_neg (by simp only; simp at h8; omega)]
      rw [this]
      refine Res.Is.panic.congr ⟨False.elim, fun h => ?_⟩ ⟨fun _ => .short b t hne (by simpa using h8), fun _ => trivial⟩
      cases h with
      | nil => exact hne rfl
      | cons c rest => simp at h8
    · obtain ⟨hs, hn⟩ := split_length (b ++ t) (by omega)
      have e1 : Slice.sub ⟨b, t⟩ 0 8 = .ok ⟨(b ++ t).take 8, (b ++ t).drop 8⟩ := by
        unfold Slice.sub Slice.cap
        rw [if_pos (by simp only; simp at h8; omega)]
        simp
      have e2 : ∀ n, Slice.sub ⟨b, t⟩ 8 (8 + n) =
          if ((b ++ t).drop 8).length < n then .panic else .ok ⟨((b ++ t).drop 8).take n, ((b ++ t).drop 8).drop n⟩ := by
        intro n
        unfold Slice.sub Slice.cap
        simp only
        simp only [List.length_append] at h8
        by_cases h : ((b ++ t).drop 8).length < n
        · rw [if_pos h]
          simp only [List.length_drop, List.length_append] at h
          rw [if_neg (by omega)]
        · rw [if_neg h]
          simp only [List.length_drop, List.length_append] at h
          rw [if_pos (by omega)]
          simp
      have e3 : ∀ n, Slice.from' ⟨b, t⟩ (8 + n) = if b.length < 8 + n then .panic else .ok ⟨b.drop (8 + n), t⟩ := by
        intro n
        unfold Slice.from' Slice.len
        simp only
        by_cases h : b.length < 8 + n
        · rw [if_pos h, if_neg (by omega)]
        · rw [if_neg h, if_pos (by omega)]
      rw [e1]
      simp only [Res.bind_ok]
      generalize leNat ((b ++ t).take 8) = n at hs hn
      rw [e2, e3]
      generalize (b ++ t).drop 8 = buf at hs
      have hbuf : buf.length + 8 = b.length + t.length := by
        have := congrArg List.length hs
        simp at this
        omega
      by_cases hfar : buf.length < n
      · rw [if_pos hfar]
        refine Res.Is.panic.congr ⟨False.elim, fun h => ?_⟩ ⟨fun _ => .far n b t buf hne hn hs hfar, fun _ => trivial⟩
        cases h with
        | nil => exact hne rfl
        | cons c rest _ hc =>
          rw [List.append_assoc, List.append_assoc] at hs
          obtain ⟨h1, rfl⟩ := List.append_inj hs (by simp)
          have := le64_inj hc hn h1
          simp at hfar
          omega
      · rw [if_neg hfar]
        simp only [Res.bind_ok]
        have hl : (buf.take n).length = n := by simp; omega
        have hi := toContentInstance_is S (buf.take n) (buf.drop n)
        rw [hl] at hi
        by_cases hpast : b.length < 8 + n
        · rw [if_pos hpast]
          have hbytes : ¬ ContentsBytes b := by
            intro h
            cases h with
            | nil => exact hne rfl
            | cons c rest _ hc =>
              rw [List.append_assoc, List.append_assoc] at hs
              obtain ⟨h1, rfl⟩ := List.append_inj hs (by simp)
              have := le64_inj hc hn h1
              simp at hpast
              omega
          refine Res.Is.congr (hi.bind (fun x _ => Res.Is.panic)) (by simp [hbytes]) ?_
          constructor
          · rintro (h | ⟨h, _⟩)
            · exact h.elim
            · exact .past n b t buf hne hn hs (by omega) h hpast
          · intro h
            cases h with
            | short _ _ _ h => simp at h8; omega
            | far m _ _ rest _ hm he h =>
              obtain ⟨h1, rfl⟩ := List.append_inj (hs.symm.trans he) (by simp)
              have := le64_inj hn hm h1
              omega
            | past m _ _ rest _ hm he hle h =>
              obtain ⟨h1, rfl⟩ := List.append_inj (hs.symm.trans he) (by simp)
              have := le64_inj hn hm h1
              exact .inr ⟨by omega, trivial⟩
            | next m c rest _ hm hl' h =>
              rw [List.append_assoc, List.append_assoc] at hs
              obtain ⟨h1, rfl⟩ := List.append_inj hs (by simp)
              have := le64_inj hm hn h1
              simp at hpast
              omega
        · rw [if_neg hpast]
          simp only [Res.bind_ok]
          have hih := ih (b.drop (8 + n)) (by simp; omega)
          have hb8 : b = le64 n ++ b.drop 8 := by
            have hd : b ++ t = b.take 8 ++ (b.drop 8 ++ t) := by rw [← List.append_assoc, List.take_append_drop]
            rw [hd] at hs
            obtain ⟨h1, h2⟩ := List.append_inj hs (by simp; omega)
            rw [← h1, List.take_append_drop]
          have hb : b = le64 n ++ ((b.drop 8).take n ++ b.drop (8 + n)) := by
            rw [show b.drop (8 + n) = (b.drop 8).drop n by rw [List.drop_drop], List.take_append_drop]
            exact hb8
          have hcl : ((b.drop 8).take n).length = n := by simp; omega
          refine Res.Is.congr (hi.bind (fun x _ => hih.bind (fun xs _ => Res.Is.ok (x :: xs)))) ?_ ?_
          · constructor
            · rintro ⟨h1, h2, -⟩
              have := ContentsBytes.cons ((b.drop 8).take n) (b.drop (8 + n)) (by omega) (by omega) h2
              rw [hcl, ← hb] at this
              exact this
            · intro h
              have key : ∀ b', ContentsBytes b' → b = b' → 73 ≤ n ∧ ContentsBytes (b.drop (8 + n)) ∧ True := ?_
              · exact key b h rfl
              intro b' h e
              cases h with
              | nil => exact absurd e hne
              | cons c rest h73 hc h2 =>
                obtain ⟨e1, e2⟩ := List.append_inj (hb.symm.trans e) (by simp)
                have := le64_inj hn hc e1
                obtain ⟨e3, e4⟩ := List.append_inj e2 (by omega)
                rw [e4]
                exact ⟨by omega, h2, trivial⟩
          · constructor
            · rintro (h | ⟨h, h' | ⟨_, h'⟩⟩)
              · exact h.elim
              · have := ContentsCrash.next n ((b.drop 8).take n) (b.drop (8 + n)) t hn hcl.symm h h'
                rw [← hb] at this
                exact this
              · exact h'.elim
            · intro h
              have key : ∀ b', ContentsCrash b' t → b = b' → False ∨ 73 ≤ n ∧
                  (ContentsCrash (b.drop (8 + n)) t ∨ ContentsBytes (b.drop (8 + n)) ∧ False) := ?_
              · exact key b h rfl
              intro b' h e
              cases h with
              | short _ _ _ h => subst e; simp at h8; omega
              | far m _ _ rest _ hm he h =>
                subst e
                obtain ⟨h1, rfl⟩ := List.append_inj (hs.symm.trans he) (by simp)
                have := le64_inj hn hm h1
                omega
              | past m _ _ rest _ hm he hle h hlt =>
                subst e
                obtain ⟨h1, rfl⟩ := List.append_inj (hs.symm.trans he) (by simp)
                have := le64_inj hn hm h1
                omega
              | next m c rest _ hm hl' h73 h2 =>
                obtain ⟨e1, e2⟩ := List.append_inj (hb.symm.trans e) (by simp)
                have := le64_inj hn hm e1
                obtain ⟨e3, e4⟩ := List.append_inj e2 (by omega)
                rw [e4]
                exact .inr ⟨by omega, .inl h2⟩

theorem toContentsInstance_is (S : Sha) (b t : Bytes) :
    (toContentsInstance S ⟨b, t⟩).Is (81 ≤ b.length ∧ ContentsBytes b) (81 ≤ b.length ∧ ContentsCrash b t) := by
  unfold toContentsInstance
  by_cases h : b.length < 81
  · rw [if_pos (by simpa [Slice.len, minContentsSize, minContentSize] using h)]
    exact Res.Is.err.congr (by simp; omega) (by simp; omega)
  · rw [if_neg (by simpa [Slice.len, minContentsSize, minContentSize] using h)]
    have hl := contentsLoop_is S t _ b (Nat.le_refl _)
    refine Res.Is.congr (hl.bind (A' := True) (C' := False) (fun list hlist => ?_)) (by simp; omega) (by simp; omega)
    have : list ≠ [] := by
      rintro rfl
      rw [contentsLoop_eq, if_neg (show ¬ Slice.len ⟨b, t⟩ ≤ 0 by simp only [Slice.len]; omega)] at hlist
      cases e1 : Slice.sub ⟨b, t⟩ 0 8 with
      | err => rw [e1] at hlist; cases hlist
      | panic => rw [e1] at hlist; cases hlist
      | ok l =>
        rw [e1] at hlist
        simp only [Res.bind_ok] at hlist
        cases e2 : Slice.sub ⟨b, t⟩ 8 (8 + leNat l.vis) with
        | err => rw [e2] at hlist; cases hlist
        | panic => rw [e2] at hlist; cases hlist
        | ok s =>
          rw [e2] at hlist
          simp only [Res.bind_ok] at hlist
          cases e3 : toContentInstance S s with
          | err => rw [e3] at hlist; cases hlist
          | panic => rw [e3] at hlist; cases hlist
          | ok x =>
            rw [e3] at hlist
            simp only [Res.bind_ok] at hlist
            cases e4 : Slice.from' ⟨b, t⟩ (8 + leNat l.vis) with
            | err => rw [e4] at hlist; cases hlist
            | panic => rw [e4] at hlist; cases hlist
            | ok r =>
              rw [e4] at hlist
              simp only [Res.bind_ok] at hlist
              cases e5 : contentsLoop S r with
              | err => rw [e5] at hlist; cases hlist
              | panic => rw [e5] at hlist; cases hlist
              | ok xs =>
                rw [e5] at hlist
                simp only [Res.bind_ok, Res.pure_eq] at hlist
                injection hlist with hlist
                cases hlist
    rw [if_neg (by simpa using this)]
    exact Res.Is.ok _

end Ref

namespace HashTree

/-! ## Compact trees -/

theorem leaf_is (S : Sha) (b t : Bytes) : (contentToLeaf S ⟨b, t⟩).Is (LeafBytes b) (LeafCrashes b t) :=
  ⟨leaf_accepts S b t, leaf_crashes S b t⟩

theorem leavesLoop_is (S : Sha) (c : Slice) : ∀ (n pos : Nat), pos ≤ c.cap → (leavesLoop S c n pos).Is
    (∃ (leaves : List Bytes) (more : Bytes), leaves.length = n ∧ (∀ l ∈ leaves, LeafBytes l ∧ l.length < 2 ^ 64) ∧
      (c.vis ++ c.tail).drop pos = listed leaves ++ more)
    (∃ (leaves : List Bytes) (more : Bytes), leaves.length < n ∧ (∀ l ∈ leaves, LeafBytes l ∧ l.length < 2 ^ 64) ∧
      (c.vis ++ c.tail).drop pos = listed leaves ++ more ∧
      (more.length < 8 ∨ ∃ m rest, m < 2 ^ 64 ∧ more = le64 m ++ rest ∧
        (rest.length < m ∨ ∃ l rest', rest = l ++ rest' ∧ l.length = m ∧ LeafCrashes l rest')))
  | 0, pos, _ => by
    unfold leavesLoop
    refine (Res.Is.ok _).congr ⟨fun _ => ⟨[], _, rfl, by simp, rfl⟩, fun _ => trivial⟩ ⟨False.elim, ?_⟩
    rintro ⟨keys, more, h, _⟩
    omega
  | n + 1, pos, hpos => by
    unfold leavesLoop
    have hcap : (c.vis ++ c.tail).length = c.cap := by simp [Slice.cap]
    have hbl : ((c.vis ++ c.tail).drop pos).length = c.cap - pos := by rw [List.length_drop, hcap]
    have e1 : c.sub pos (pos + 8) = if ((c.vis ++ c.tail).drop pos).length < 8 then .panic else
        .ok ⟨((c.vis ++ c.tail).drop pos).take 8, ((c.vis ++ c.tail).drop pos).drop 8⟩ := by
      unfold Slice.sub
      rw [hbl]
      by_cases h : c.cap - pos < 8
      · rw [if_pos h, if_neg (by omega)]
      · rw [if_neg h, if_pos (by omega), Nat.add_sub_cancel_left, List.drop_drop]
    by_cases h8 : ((c.vis ++ c.tail).drop pos).length < 8
    · rw [e1, if_pos h8]
      refine Res.Is.panic.congr ⟨False.elim, ?_⟩ ⟨fun _ => ⟨[], _, by simp, by simp, rfl, .inl h8⟩, fun _ => trivial⟩
      rintro ⟨leaves, more, hl, _, he⟩
      cases leaves with
      | nil => simp at hl
      | cons l ls =>
        rw [he] at h8
        simp [listed] at h8
    · rw [e1, if_neg h8]
      simp only [Res.bind_ok]
      obtain ⟨hs, hm⟩ := split_length ((c.vis ++ c.tail).drop pos) (by omega)
      generalize leNat (((c.vis ++ c.tail).drop pos).take 8) = m at hs hm
      have e2 : c.sub (pos + 8) (pos + 8 + m) = if (((c.vis ++ c.tail).drop pos).drop 8).length < m then .panic else
          .ok ⟨(((c.vis ++ c.tail).drop pos).drop 8).take m, (((c.vis ++ c.tail).drop pos).drop 8).drop m⟩ := by
        unfold Slice.sub
        rw [List.length_drop, hbl]
        by_cases h : c.cap - pos - 8 < m
        · rw [if_pos h, if_neg (by omega)]
        · rw [if_neg h, if_pos (by omega), Nat.add_sub_cancel_left, List.drop_drop, List.drop_drop]
      have hb8 : (((c.vis ++ c.tail).drop pos).drop 8).length = c.cap - pos - 8 := by rw [List.length_drop, hbl]
      have hdd : (c.vis ++ c.tail).drop (pos + 8 + m) = (((c.vis ++ c.tail).drop pos).drop 8).drop m := by
        rw [List.drop_drop, List.drop_drop, Nat.add_assoc]
      have hih : pos + 8 + m ≤ c.cap → _ := fun h => leavesLoop_is S c n (pos + 8 + m) h
      rw [hdd] at hih
      rw [e2]
      generalize ((c.vis ++ c.tail).drop pos).drop 8 = buf at hs hb8 hih
      by_cases hfar : buf.length < m
      · rw [if_pos hfar]
        refine Res.Is.panic.congr ⟨False.elim, ?_⟩
          ⟨fun _ => ⟨[], _, by simp, by simp, rfl, .inr ⟨m, buf, hm, hs, .inl hfar⟩⟩, fun _ => trivial⟩
        rintro ⟨leaves, more, hl, hk, he⟩
        cases leaves with
        | nil => simp at hl
        | cons l ls =>
          rw [listed, List.append_assoc] at he
          obtain ⟨h1, rfl⟩ := List.append_inj (hs.symm.trans he) (by simp)
          have := le64_inj hm (hk l (by simp)).2 h1
          simp at hfar
          omega
      · rw [if_neg hfar]
        simp only [Res.bind_ok]
        have hih := hih (by omega)
        have hl8 : (buf.take m).length = m := by simp; omega
        rw [hs]
        refine Res.Is.congr ((leaf_is S _ _).bind fun x _ => hih.bind fun xs _ => Res.Is.ok (x :: xs)) ?_ ?_
        · constructor
          · rintro ⟨h1, ⟨leaves, more, hl, hk, he⟩, -⟩
            refine ⟨buf.take m :: leaves, more, by simp [hl], ?_, ?_⟩
            · intro l hl
              cases hl with
              | head => exact ⟨h1, by omega⟩
              | tail _ hl => exact hk l hl
            · rw [listed, hl8, List.append_assoc, List.append_assoc, ← he, List.take_append_drop]
          · rintro ⟨leaves, more, hl, hk, he⟩
            cases leaves with
            | nil => simp at hl
            | cons l ls =>
              rw [listed, List.append_assoc, List.append_assoc] at he
              obtain ⟨h1, rfl⟩ := List.append_inj he (by simp)
              have := le64_inj hm (hk l (by simp)).2 h1
              subst this
              rw [List.take_left, List.drop_left]
              exact ⟨(hk l (by simp)).1, ⟨ls, more, by simpa using hl, fun l' hm => hk l' (by simp [hm]), rfl⟩, trivial⟩
        · constructor
          · rintro (h | ⟨h1, ⟨leaves, more, hl, hk, he, h⟩ | ⟨_, h⟩⟩)
            · exact ⟨[], le64 m ++ buf, by simp, by simp, rfl,
                .inr ⟨m, buf, hm, rfl, .inr ⟨_, _, (List.take_append_drop m buf).symm, hl8, h⟩⟩⟩
            · refine ⟨buf.take m :: leaves, more, by simp [hl], ?_, ?_, h⟩
              · intro l hl
                cases hl with
                | head => exact ⟨h1, by omega⟩
                | tail _ hl => exact hk l hl
              · rw [listed, hl8, List.append_assoc, List.append_assoc, ← he, List.take_append_drop]
            · exact h.elim
          · rintro ⟨leaves, more, hl, hk, he, h⟩
            cases leaves with
            | nil =>
              rw [listed, List.nil_append] at he
              subst he
              rcases h with h | ⟨m', rest, hm', he, h⟩
              · simp at h
              · obtain ⟨h1, rfl⟩ := List.append_inj he (by simp)
                have := le64_inj hm hm' h1
                subst this
                rcases h with h | ⟨l, rest', rfl, hl, h⟩
                · omega
                · rw [← hl, List.take_left, List.drop_left]
                  exact .inl h
            | cons l ls =>
              rw [listed, List.append_assoc, List.append_assoc] at he
              obtain ⟨h1, rfl⟩ := List.append_inj he (by simp)
              have := le64_inj hm (hk l (by simp)).2 h1
              subst this
              rw [List.take_left, List.drop_left]
              exact .inr ⟨(hk l (by simp)).1, .inl ⟨ls, more, by simpa using hl, fun l' hm => hk l' (by simp [hm]), rfl, h⟩⟩

theorem leavesLoop_length (S : Sha) (c : Slice) : ∀ n pos list, leavesLoop S c n pos = .ok list → list.length = n := by
  intro n
  induction n with
  | zero =>
    intro pos list h
    unfold leavesLoop at h
    injection h with h
    subst h
    rfl
  | succ n ih =>
    intro pos list h
    unfold leavesLoop at h
    cases e1 : c.sub pos (pos + 8) with
    | err => rw [e1] at h; cases h
    | panic => rw [e1] at h; cases h
    | ok s =>
      rw [e1] at h
      simp only [Res.bind_ok] at h
      cases e2 : c.sub (pos + 8) (pos + 8 + leNat s.vis) with
      | err => rw [e2] at h; cases h
      | panic => rw [e2] at h; cases h
      | ok x =>
        rw [e2] at h
        simp only [Res.bind_ok] at h
        cases e3 : contentToLeaf S x with
        | err => rw [e3] at h; cases h
        | panic => rw [e3] at h; cases h
        | ok y =>
          rw [e3] at h
          simp only [Res.bind_ok] at h
          cases e4 : leavesLoop S c n (pos + 8 + leNat s.vis) with
          | err => rw [e4] at h; cases h
          | panic => rw [e4] at h; cases h
          | ok xs =>
            rw [e4] at h
            simp only [Res.bind_ok, Res.pure_eq] at h
            injection h with h
            subst h
            simp [ih _ _ e4]

theorem toLeaves_is (S : Sha) (b t : Bytes) : (toLeaves S ⟨b, t⟩).Is (LeavesBytes b t) (LeavesCrash b t) := by
  unfold toLeaves
  by_cases h : b.length < 80
  · rw [if_pos (by simpa [Slice.len, minLeavesSize] using h)]
    refine Res.Is.err.congr ⟨False.elim, ?_⟩ ⟨False.elim, ?_⟩
    · rintro ⟨leaves, more, h', _⟩
      omega
    · rintro ⟨n, leaves, more, h', _⟩
      omega
  · rw [if_neg (by simpa [Slice.len, minLeavesSize] using h)]
    obtain ⟨hs, hn⟩ := split_length b (by omega)
    generalize leNat (b.take 8) = n at hs hn
    generalize b.drop 8 = rest at hs
    subst hs
    rw [Slice.sub_field]
    simp only [Res.bind_ok, leNat_le64 n hn]
    have hd : (le64 n ++ rest ++ t).drop 8 = rest ++ t := by
      rw [List.append_assoc, List.drop_left' (by simp)]
    by_cases h63 : n < 2 ^ 63
    · rw [if_pos h63]
      have hl := leavesLoop_is S ⟨le64 n ++ rest, t⟩ n 8 (by simp [Slice.cap]; omega)
      simp only [hd] at hl
      refine Res.Is.congr (hl.bind (A' := n ≠ 0) (C' := False) (fun list hlist => ?_)) ?_ ?_
      · have := leavesLoop_length S _ n 8 list hlist
        cases list with
        | nil =>
          have h0 : n = 0 := this.symm
          rw [if_pos List.isEmpty_nil]
          exact Res.Is.err.congr (by simp [h0]) Iff.rfl
        | cons x xs =>
          have h0 : n ≠ 0 := by rw [← this]; simp
          rw [if_neg (by simp)]
          exact (Res.Is.ok _).congr (by simp [h0]) Iff.rfl
      · constructor
        · rintro ⟨⟨leaves, more, hl, hk, he⟩, h0⟩
          refine ⟨leaves, more, by omega, ?_, by omega, hk, ?_⟩
          · rintro rfl
            exact h0 hl.symm
          · rw [hl, List.append_assoc, he]
        · rintro ⟨leaves, more, _, hne, hlt, hk, he⟩
          rw [List.append_assoc] at he
          obtain ⟨e1, e2⟩ := List.append_inj he (by simp)
          have := le64_inj hn (by omega) e1
          exact ⟨⟨leaves, more, this.symm, hk, e2⟩, by rw [this]; exact fun h => hne (List.length_eq_zero_iff.1 h)⟩
      · constructor
        · rintro (⟨leaves, more, hl, hk, he, h'⟩ | ⟨_, h⟩)
          · exact ⟨n, leaves, more, by omega, h63, hl, hk, by rw [List.append_assoc, he], h'⟩
          · exact h.elim
        · rintro ⟨m, leaves, more, _, hm, hl, hk, he, h'⟩
          rw [List.append_assoc] at he
          obtain ⟨e1, e2⟩ := List.append_inj he (by simp)
          have := le64_inj hn (by omega) e1
          subst this
          exact .inl ⟨leaves, more, hl, hk, e2, h'⟩
    · rw [if_neg h63]
      refine Res.Is.congr (A := False) (C := False) ?_ ⟨False.elim, ?_⟩ ⟨False.elim, ?_⟩
      · exact Res.Is.err
      · rintro ⟨leaves, more, _, hne, hlt, hk, he⟩
        rw [List.append_assoc] at he
        obtain ⟨e1, e2⟩ := List.append_inj he (by simp)
        have := le64_inj hn (by omega) e1
        omega
      · rintro ⟨m, leaves, more, _, hm, hl, hk, he, h'⟩
        rw [List.append_assoc] at he
        obtain ⟨e1, e2⟩ := List.append_inj he (by simp)
        have := le64_inj hn (by omega) e1
        omega

theorem contentToCompact_is (S : Sha) (b t : Bytes) : (contentToCompact S ⟨b, t⟩).Is (CompactBytes b t) (CompactCrashes b t) := by
  unfold contentToCompact
  by_cases h : b.length < 128
  · rw [if_pos (by simpa [Slice.len, minCompactSize] using h)]
    refine Res.Is.err.congr ⟨False.elim, ?_⟩ ⟨False.elim, ?_⟩
    · rintro ⟨head, rest, h64, rfl, ⟨_, _, h80, _⟩⟩
      simp at h
      omega
    · rintro ⟨head, rest, h64, rfl, ⟨_, _, _, h80, _⟩⟩
      simp at h
      omega
  · rw [if_neg (by simpa [Slice.len, minCompactSize] using h)]
    have hh : (b.take 64).length = 64 := by simp; omega
    have he : b = b.take 64 ++ b.drop 64 := (List.take_append_drop _ _).symm
    generalize b.take 64 = head at he hh
    generalize b.drop 64 = rest at he
    subst he
    have e1 := Slice.sub_zero_append head rest t
    have e2 := Slice.from_append head rest t
    rw [hh] at e1 e2
    rw [e1, e2]
    simp only [Res.bind_ok]
    refine Res.Is.congr ((toLeaves_is S rest t).bind (A' := True) (C' := False) (fun l _ => Res.Is.ok (⟨Hash.fromBytes S head, l⟩ : Compact))) ?_ ?_
    · constructor
      · rintro ⟨h, -⟩
        exact ⟨head, rest, hh, rfl, h⟩
      · rintro ⟨head', rest', h64, he, h⟩
        obtain ⟨rfl, rfl⟩ := List.append_inj he (by omega)
        exact ⟨h, trivial⟩
    · constructor
      · rintro (h | ⟨_, h⟩)
        · exact ⟨head, rest, hh, rfl, h⟩
        · exact h.elim
      · rintro ⟨head', rest', h64, he, h⟩
        obtain ⟨rfl, rfl⟩ := List.append_inj he (by omega)
        exact .inl h

end HashTree
end Rodkina
