import Verif.ReferencesLemmas
import Verif.HashTreeProps
/-!
# Properties C13-C22, C65: pointers, content keys, commits, references, contents
-/

set_option maxRecDepth 4000

namespace Rodkina.Props

open Rodkina Ref

/-- C13: pointers with positive length round-trip in exactly 16 bytes, whatever follows them in the buffer. -/
theorem C13_pointer_round_trip (p : Pointer) (hf : p.from' < 2 ^ 64) (hl : p.length < 2 ^ 64) (hp : 0 < p.length)
    (tail : Bytes) :
    (pointerToContent p).length = 16 ∧ toPointer ⟨pointerToContent p, tail⟩ = .ok p :=
  ⟨pointerToContent_length p, toPointer_pointerToContent p ⟨hf, hl, hp⟩ tail⟩

example : toPointer ⟨pointerToContent ⟨5, 3⟩, [9]⟩ = .ok ⟨5, 3⟩ :=
  (C13_pointer_round_trip ⟨5, 3⟩ (by decide) (by decide) (by decide) [9]).2

/-- C13: content of any size other than 16 is rejected, and so is a zero length field; decoding never panics. -/
theorem C13_pointer_rejects (c : Slice) :
    (c.len ≠ 16 → toPointer c = .err) ∧ toPointer c ≠ .panic ∧
    (∀ p, toPointer c = .ok p → 0 < p.length ∧ pointerToContent p = c.vis) := by
  refine ⟨fun h => by simp [toPointer, pointerSize, h], ?_, ?_⟩
  · unfold toPointer
    split
    · simp
    · rename_i h
      have h : c.len = 16 := by simpa [pointerSize] using h
      have e1 : c.sub 0 8 = .ok ⟨(c.vis ++ c.tail).take 8, (c.vis ++ c.tail).drop 8⟩ := by
        unfold Slice.sub
        rw [if_pos (by simp [Slice.len] at h; simp [Slice.cap]; omega)]
        rfl
      have e2 : c.from' 8 = .ok ⟨c.vis.drop 8, c.tail⟩ := by
        unfold Slice.from'
        rw [if_pos (by omega)]
      rw [e1, e2]
      simp only [Res.bind_ok, pointerNow]
      split <;> simp
  · intro p hp
    unfold toPointer at hp
    split at hp
    · cases hp
    · rename_i h
      have h : c.len = 16 := by simpa [pointerSize] using h
      simp only [Res.bind_eq_ok] at hp
      obtain ⟨a, ha, b, hb, hp⟩ := hp
      have v1 := Slice.sub_ok_len ha (by omega)
      obtain ⟨_, v2, _⟩ := Slice.from_ok hb
      simp only [Slice.len] at h
      unfold pointerNow at hp
      simp only at hp
      split at hp
      · cases hp
      injection hp with hp
      subst hp
      refine ⟨by simp; omega, ?_⟩
      simp only [pointerToContent]
      rw [le64_leNat _ (by rw [v1]; simp; omega), le64_leNat _ (by rw [v2]; simp; omega), v1, v2]
      simp

example : (5 : Nat) < 2 ^ 64 ∧ 0 < (3 : Nat) := by decide

/-- C13: content keys round-trip in exactly 152 bytes. -/
theorem C13_content_key_round_trip (S : Sha) (k : ContentKey) (hh : k.hash.length = 64) (hk : k.kind < 2 ^ 64)
    (hf : k.content.from' < 2 ^ 64) (hl : k.content.length < 2 ^ 64) (hp : 0 < k.content.length)
    (hc : k.commit.length = 64) (tail : Bytes) :
    (contentKeyToContent k).length = 152 ∧ toContentKey S ⟨contentKeyToContent k, tail⟩ = .ok k :=
  ⟨contentKeyToContent_length k ⟨hh, hk, ⟨hf, hl, hp⟩, hc⟩,
    toContentKey_contentKeyToContent S k ⟨hh, hk, ⟨hf, hl, hp⟩, hc⟩ tail⟩

/-- C13: content of any size other than 152 bytes is rejected. -/
theorem C13_content_key_rejects (S : Sha) (c : Slice) (h : c.len ≠ 152) : toContentKey S c = .err := by
  simp [toContentKey, contentKeySize, h]

/-- A sample key used to show that hypotheses are satisfiable. -/
def sampleKey : ContentKey := ⟨List.replicate 64 1, 3, ⟨0, 5⟩, List.replicate 64 2⟩
/-- Another sample key, right behind `sampleKey`. -/
def sampleKey2 : ContentKey := ⟨List.replicate 64 7, 4, ⟨5, 6⟩, List.replicate 64 2⟩

theorem sampleKeys_wf : ∀ k ∈ [sampleKey, sampleKey2], k.WF := by decide

example : sampleKey.hash.length = 64 ∧ sampleKey.commit.length = 64 ∧ 0 < sampleKey.content.length := by decide

/-- C14: non-empty key lists round-trip, in order. -/
theorem C14_keys_round_trip (S : Sha) (L : List ContentKey) (hne : L ≠ []) (hL : ∀ x ∈ L, x.WF)
    (hn : L.length < 2 ^ 63) (tail : Bytes) :
    ∃ k, contentKeysNow L = .ok k ∧ k.list = L ∧ toContentKeys S ⟨contentKeysToContent k, tail⟩ = .ok k := by
  have h : contentKeysNow L = .ok ⟨GoMap.ofList (fun k => Hash.toString k.hash) L, L⟩ := by
    unfold contentKeysNow
    rw [if_neg]
    cases L with
    | nil => exact absurd rfl hne
    | cons _ _ => simp
  exact ⟨_, h, rfl, toContentKeys_contentKeysToContent S _ L h hL hn tail⟩

example (S : Sha) : ∃ k, contentKeysNow [sampleKey, sampleKey2] = .ok k ∧ toContentKeys S ⟨contentKeysToContent k, [9]⟩ = .ok k :=
  let ⟨k, h, _, h'⟩ := C14_keys_round_trip S [sampleKey, sampleKey2] (by simp) sampleKeys_wf (by decide) [9]
  ⟨k, h, h'⟩

/-- `k` is the last element of `L` satisfying `P`. -/
def IsLast {α : Type} (P : α → Prop) (L : List α) (k : α) : Prop :=
  ∃ before after, L = before ++ k :: after ∧ P k ∧ ∀ x ∈ after, ¬ P x

theorem isLast_iff {α : Type} (P : α → Prop) [DecidablePred P] (L : List α) (k : α) :
    L.reverse.find? (fun x => decide (P x)) = some k ↔ IsLast P L k := by
  rw [List.find?_eq_some_iff_append]
  constructor
  · rintro ⟨h1, as, bs, h2, h3⟩
    refine ⟨bs.reverse, as.reverse, ?_, by simpa using h1, ?_⟩
    · have := congrArg List.reverse h2
      simpa using this
    · intro x hx
      have := h3 x (by simpa using hx)
      simpa using this
  · rintro ⟨b, a, rfl, h1, h2⟩
    refine ⟨by simpa using h1, a.reverse, b.reverse, by simp, ?_⟩
    intro x hx
    simpa using h2 x (by simpa using hx)

theorem find_hash_eq {α : Type} (key : α → Bytes) (L : List α) (h : Bytes) :
    L.reverse.find? (fun x => Hash.toString (key x) == Hash.toString h) = L.reverse.find? (fun x => decide (key x = h)) := by
  congr 1
  funext x
  by_cases e : key x = h
  · simp [e]
  · have : ¬ Hash.toString (key x) = Hash.toString h := fun e' => e (Hash.toString_inj e')
    simp [e, this]

/-- C14: looking up a hash returns the last key of the list with that hash, and fails exactly when there is none. -/
theorem C14_keys_fetch (L : List ContentKey) (k : ContentKeys) (hk : contentKeysNow L = .ok k) (h : Bytes) :
    (∀ x, k.fetch h = .ok x ↔ IsLast (fun y => y.hash = h) L x) ∧
    (k.fetch h = .err ↔ ∀ x ∈ L, x.hash ≠ h) ∧ k.fetch h ≠ .panic := by
  obtain ⟨_, rfl⟩ := contentKeysNow_ok hk
  have e : ContentKeys.fetch ⟨GoMap.ofList (fun k => Hash.toString k.hash) L, L⟩ h =
      match L.reverse.find? (fun x => decide (x.hash = h)) with | some x => .ok x | none => .err := by
    unfold ContentKeys.fetch
    rw [GoMap.get_ofList, find_hash_eq (fun k : ContentKey => k.hash)]
    cases L.reverse.find? (fun x => decide (x.hash = h)) <;> rfl
  rw [e]
  cases hf : L.reverse.find? (fun x => decide (x.hash = h)) with
  | some y =>
    refine ⟨fun x => ?_, ?_, by simp⟩
    · rw [← isLast_iff, hf]; simp
    · have h1 := List.mem_of_find?_eq_some hf
      have h2 := List.find?_some hf
      constructor
      · intro h; cases h
      · intro hall
        exact absurd (by simpa using h2) (hall y (by simpa using h1))
  | none =>
    refine ⟨fun x => ?_, ?_, by simp⟩
    · rw [← isLast_iff, hf]; simp
    · rw [List.find?_eq_none] at hf
      simp only [true_iff]
      intro x hx
      simpa using hf x (by simpa using hx)

example : ∃ k, contentKeysNow [sampleKey, sampleKey2, sampleKey] = .ok k ∧ k.fetch (List.replicate 64 7) = .ok sampleKey2 :=
  ⟨_, rfl, ((C14_keys_fetch [sampleKey, sampleKey2, sampleKey] _ rfl _).1 _).mpr ⟨[sampleKey], [sampleKey], rfl, rfl, by decide⟩⟩

/-- C14: listing by kind keeps exactly the keys of that kind, in order. -/
theorem C14_keys_by_kind (k : ContentKeys) (kind : Nat) :
    k.listByKind kind = k.list.filter (fun x => decide (x.kind = kind)) := by
  unfold ContentKeys.listByKind
  congr 1
  funext x
  by_cases h : x.kind = kind <;> simp [h]

example : contentKeysNow [sampleKey, sampleKey2, sampleKey] =
    .ok ⟨GoMap.ofList (fun k => Hash.toString k.hash) [sampleKey, sampleKey2, sampleKey], [sampleKey, sampleKey2, sampleKey]⟩ := rfl
example : IsLast (fun y => y.hash = List.replicate 64 7) [sampleKey, sampleKey2, sampleKey] sampleKey2 :=
  ⟨[sampleKey], [sampleKey], rfl, rfl, by decide⟩

theorem next_foldl (L : List ContentKey) (b : Int) (h : ∀ x ∈ L, x.content.from' + x.content.length < 2 ^ 63) :
    let r := L.foldl (fun biggest x =>
      let next := ofU64 ((x.content.from' + x.content.length) % 2 ^ 64)
      if biggest < next then next else biggest) b
    b ≤ r ∧ (∀ x ∈ L, ((x.content.from' + x.content.length : Nat) : Int) ≤ r) ∧
    (r = b ∨ ∃ x ∈ L, r = ((x.content.from' + x.content.length : Nat) : Int)) := by
  induction L generalizing b with
  | nil => simp
  | cons y ys ih =>
    have hy := h y (by simp)
    have e : ofU64 ((y.content.from' + y.content.length) % 2 ^ 64) = ((y.content.from' + y.content.length : Nat) : Int) := by
      rw [Nat.mod_eq_of_lt (by omega)]
      unfold ofU64
      rw [if_pos hy]
    simp only [List.foldl_cons, e]
    have ih' := ih (if b < ((y.content.from' + y.content.length : Nat) : Int) then
      ((y.content.from' + y.content.length : Nat) : Int) else b) (fun x hx => h x (by simp [hx]))
    simp only at ih'
    generalize hr : List.foldl _ (if b < ((y.content.from' + y.content.length : Nat) : Int) then
      ((y.content.from' + y.content.length : Nat) : Int) else b) ys = r at ih' ⊢
    clear hr
    obtain ⟨i1, i2, i3⟩ := ih'
    refine ⟨?_, ?_, ?_⟩
    · split at i1 <;> omega
    · intro x hx
      simp only [List.mem_cons] at hx
      rcases hx with rfl | hx
      · split at i1 <;> omega
      · exact i2 x hx
    · rcases i3 with i3 | ⟨x, hx, i3⟩
      · split at i3
        · exact .inr ⟨y, by simp, i3⟩
        · exact .inl i3
      · exact .inr ⟨x, by simp [hx], i3⟩

/-- C15: for keys built from a non-empty list whose pointers end below 2^63 (the largest file offset), the next offset is
the end of one of the pointers and at least the end of every one; a region starting there overlaps none of them. -/
theorem C15_next_is_past_everything (L : List ContentKey) (k : ContentKeys) (hk : contentKeysNow L = .ok k)
    (h : ∀ x ∈ L, x.content.from' + x.content.length < 2 ^ 63) :
    (∀ x ∈ L, ((x.content.from' + x.content.length : Nat) : Int) ≤ k.next) ∧
    (∃ x ∈ L, k.next = ((x.content.from' + x.content.length : Nat) : Int)) ∧
    (∀ x ∈ L, ∀ o : Int, k.next ≤ o → ¬ ((x.content.from' : Int) ≤ o ∧ o < x.content.from' + x.content.length)) := by
  obtain ⟨hne, rfl⟩ := contentKeysNow_ok hk
  have hn := next_foldl L 0 h
  simp only at hn
  obtain ⟨n1, n2, n3⟩ := hn
  have e : ContentKeys.next ⟨GoMap.ofList (fun k => Hash.toString k.hash) L, L⟩ = L.foldl (fun biggest x =>
      let next := ofU64 ((x.content.from' + x.content.length) % 2 ^ 64)
      if biggest < next then next else biggest) 0 := rfl
  simp only [e]
  refine ⟨n2, ?_, ?_⟩
  · rcases n3 with n3 | n3
    · match L, hne, n2, n3 with
      | y :: ys, _, n2, n3 =>
        have := n2 y (by simp)
        refine ⟨y, by simp, ?_⟩
        omega
    · exact n3
  · intro x hx o ho ⟨_, h2⟩
    have := n2 x hx
    omega

example : ∃ k, contentKeysNow [sampleKey, sampleKey2] = .ok k ∧
    ∀ x ∈ [sampleKey, sampleKey2], ((x.content.from' + x.content.length : Nat) : Int) ≤ k.next :=
  ⟨_, rfl, (C15_next_is_past_everything [sampleKey, sampleKey2] _ rfl (by decide)).1⟩

/-- C15 (limit): at the very end of the 64-bit range the sum wraps and the next offset falls back to 0, so the bound in
the theorem above is needed. -/
theorem C15_wraps_at_the_end : ∃ (L : List ContentKey) (k : ContentKeys), contentKeysNow L = .ok k ∧
    (∀ x ∈ L, x.WF) ∧ k.next = 0 :=
  ⟨[⟨List.replicate 64 1, 3, ⟨2 ^ 64 - 1, 1⟩, List.replicate 64 2⟩], _, rfl, by decide, by decide⟩

example : ∀ x ∈ [sampleKey, sampleKey2], x.content.from' + x.content.length < 2 ^ 63 := by decide

/-! ## Commits -/

/-- C16: commits with or without parent and with or without a non-negative proof decode to themselves (same hash, values,
time, parent, proof, score). -/
theorem C16_commit_round_trip (S : Sha) (mv : UInt8) (values : HashTree.Tree) (createdOn : Int)
    (parent : Option Bytes) (proof : Option Int)
    (hv : values.Sized) (t1 : -2 ^ 63 ≤ createdOn) (t2 : createdOn < 2 ^ 63)
    (hp : ∀ p, parent = some p → p.length = 64) (hq : ∀ p, proof = some p → 0 ≤ p)
    (hlen : (commitToContent (commitNow S mv values createdOn parent proof)).length < 2 ^ 63) (tail : Bytes) :
    toCommit S mv ⟨commitToContent (commitNow S mv values createdOn parent proof), tail⟩ =
      .ok (commitNow S mv values createdOn parent proof) := by
  apply toCommit_commitToContent
  constructor
  · cases proof <;> rfl
  · exact hv
  · exact t1
  · exact t2
  · exact hp
  · cases proof with
    | none => intro m hm; simp [commitNow] at hm
    | some p =>
      intro m hm
      simp only [commitNow, Option.map_some, Option.some.injEq] at hm
      rw [← hm]
      exact hq p rfl
  · exact hlen

/-- The sample values tree of the examples. -/
def sampleTree : HashTree.Tree := ⟨List.replicate 64 9, .base (List.replicate 64 1), .base (List.replicate 64 2)⟩

theorem sampleTree_sized : sampleTree.Sized := by simp [sampleTree, HashTree.Tree.Sized, HashTree.Leaf.Sized]

theorem natBE_length_le (k n : Nat) (h : n < 256 ^ k) : (natBE n).length ≤ k := by
  induction k generalizing n with
  | zero => have : n = 0 := by omega
            subst this; simp [natBE]
  | succ k ih =>
    unfold natBE
    split
    · simp
    · have := ih (n / 256) (by rw [Nat.pow_succ] at h; omega)
      simp; omega

-- the hypotheses of C16 hold for a commit with a parent and a mined proof, for every digest function
example (S : Sha) : sampleTree.Sized ∧ (commitToContent (commitNow S 7 sampleTree (-5) (some (List.replicate 64 3)) (some 70000))).length < 2 ^ 63 := by
  refine ⟨sampleTree_sized, ?_⟩
  have := natBE_length_le 3 70000 (by decide)
  simp only [commitToContent, commitNow, HashTree.toContent, HashTree.parentToContent, HashTree.leafToContent, sampleTree,
    proofPart, parentPart, bigBytes, List.length_append, le64_length, List.length_cons, List.length_replicate, Option.map_some]
  have : (Int.natAbs 70000) = 70000 := rfl
  rw [this]
  omega

/-- C17 (negation): a negative proof is decoded with its sign dropped, always. -/
theorem C17_negative_proof_loses_sign (S : Sha) (mv : UInt8) (values : HashTree.Tree) (createdOn : Int)
    (parent : Option Bytes) (proof : Int)
    (hv : values.Sized) (t1 : -2 ^ 63 ≤ createdOn) (t2 : createdOn < 2 ^ 63)
    (hp : ∀ p, parent = some p → p.length = 64) (hneg : proof < 0)
    (hlen : (commitToContent (commitNow S mv values createdOn parent (some proof))).length < 2 ^ 63) :
    ∃ c m, toCommit S mv (Slice.ofBytes (commitToContent (commitNow S mv values createdOn parent (some proof)))) = .ok c ∧
      c.mine = some m ∧ m.proof = -proof ∧ m.proof ≠ proof ∧
      c.hash = (commitNow S mv values createdOn parent (some proof)).hash := by
  have h := toCommit_commitToContent_gen S mv (commitNow S mv values createdOn parent (some proof)) [] hv t1 t2 hp hlen
  refine ⟨_, _, h, rfl, ?_, ?_, ?_⟩
  · simp only; omega
  · simp only; omega
  · have e : ((proof.natAbs : Int)).natAbs = proof.natAbs := Int.natAbs_natCast _
    simp only [commitNow, commitHash, bigBytes, Option.map_some, e]

example : sampleTree.Sized ∧ (-(3 : Int)) < 0 := ⟨sampleTree_sized, by decide⟩

/-- C17 (partial): every proof that is not negative survives. Missing: negative proofs (the sign is lost). -/
theorem C17_proof_kept_partial (S : Sha) (mv : UInt8) (values : HashTree.Tree) (createdOn : Int)
    (parent : Option Bytes) (proof : Int)
    (hv : values.Sized) (t1 : -2 ^ 63 ≤ createdOn) (t2 : createdOn < 2 ^ 63)
    (hp : ∀ p, parent = some p → p.length = 64) (hpos : 0 ≤ proof)
    (hlen : (commitToContent (commitNow S mv values createdOn parent (some proof))).length < 2 ^ 63) (tail : Bytes) :
    ∃ c m, toCommit S mv ⟨commitToContent (commitNow S mv values createdOn parent (some proof)), tail⟩ = .ok c ∧
      c.mine = some m ∧ m.proof = proof :=
  ⟨_, _, C16_commit_round_trip S mv values createdOn parent (some proof) hv t1 t2 hp
    (by intro p h; injection h with h; omega) hlen tail, rfl, rfl⟩

example (S : Sha) : ∃ c m, toCommit S 7 ⟨commitToContent (commitNow S 7 sampleTree (-5) (some (List.replicate 64 3)) (some 70000)), [9]⟩ = .ok c ∧
    c.mine = some m ∧ m.proof = 70000 := by
  refine C17_proof_kept_partial S 7 sampleTree (-5) _ 70000 sampleTree_sized (by decide) (by decide) ?_ (by decide) ?_ [9]
  · intro p hp
    injection hp with hp
    rw [← hp, List.length_replicate]
  · have := natBE_length_le 3 70000 (by decide)
    simp only [commitToContent, commitNow, HashTree.toContent, HashTree.parentToContent, HashTree.leafToContent, sampleTree,
      proofPart, parentPart, bigBytes, List.length_append, le64_length, List.length_cons, List.length_replicate, Option.map_some]
    have : (Int.natAbs 70000) = 70000 := rfl
    rw [this]
    omega

/-- C18 (partial): among commits without a proof, equal hashes mean equal values head, creation time and parent, unless
SHA-512 collides. Missing: commits with a proof, for which the hash is ambiguous (see the negations). -/
theorem C18_hash_binds_commit_partial (S : Sha) (mv : UInt8) (v1 v2 : HashTree.Tree) (t1 t2 : Int)
    (p1 p2 : Option Bytes) (hv1 : v1.Sized) (hv2 : v2.Sized)
    (a1 : -2 ^ 63 ≤ t1) (b1 : t1 < 2 ^ 63) (a2 : -2 ^ 63 ≤ t2) (b2 : t2 < 2 ^ 63)
    (hp1 : ∀ p, p1 = some p → p.length = 64) (hp2 : ∀ p, p2 = some p → p.length = 64)
    (h : (commitNow S mv v1 t1 p1 none).hash = (commitNow S mv v2 t2 p2 none).hash) :
    (v1.head = v2.head ∧ t1 = t2 ∧ p1 = p2) ∨ ∃ x y : Bytes, x ≠ y ∧ S.f x = S.f y := by
  by_cases hcol : ∃ x y : Bytes, x ≠ y ∧ S.f x = S.f y
  · exact .inr hcol
  left
  have hinj : ∀ x y : Bytes, S.f x = S.f y → x = y := by
    intro x y hxy
    by_contra hne
    exact hcol ⟨x, y, hne, hxy⟩
  have d1 := decInt_length_le t1 a1 b1
  have d2 := decInt_length_le t2 a2 b2
  have e1 := decInt_length_pos t1
  have e2 := decInt_length_pos t2
  have hl1 := hv1.1
  have hl2 := hv2.1
  simp only [commitNow, commitHash, List.append_nil, Hash.fromMultiBytes_eq] at h
  rw [Hash.fromBytes_of_ne, Hash.fromBytes_of_ne] at h
  · have h := hinj _ _ h
    cases p1 with
    | none =>
      cases p2 with
      | none =>
        simp at h
        obtain ⟨h1, h2⟩ := List.append_inj h (by rw [hl1, hl2])
        exact ⟨h1, decInt_inj h2, rfl⟩
      | some q2 =>
        have := congrArg List.length h
        have := hp2 q2 rfl
        simp at *
        omega
    | some q1 =>
      cases p2 with
      | none =>
        have := congrArg List.length h
        have := hp1 q1 rfl
        simp at *
        omega
      | some q2 =>
        have l1 := hp1 q1 rfl
        have l2 := hp2 q2 rfl
        simp at h
        obtain ⟨h1, h2⟩ := List.append_inj h (by rw [hl1, hl2])
        obtain ⟨h3, h4⟩ := List.append_inj' h2 (by rw [l1, l2])
        exact ⟨h1, decInt_inj h3, by rw [h4]⟩
  · cases p2 <;> simp <;> omega
  · cases p1 <;> simp <;> omega

example : (-2 ^ 63 : Int) ≤ 1666000000000000000 ∧ (1666000000000000000 : Int) < 2 ^ 63 ∧ sampleTree.Sized :=
  ⟨by decide, by decide, sampleTree_sized⟩

/-- C18 (partial): commits made in the same period — creation times with the same number of decimal digits, as have all times
between 2001 and 2262 — with or without a parent, with or without a positive proof of less than 64 bytes: equal hashes mean equal
values head, creation time, parent and proof, unless SHA-512 collides. Missing: times of different length, the proof 0, negative
proofs and proofs of 64 bytes or more. -/
theorem C18_hash_binds_commit_and_proof_partial (S : Sha) (mv : UInt8) (v1 v2 : HashTree.Tree) (k : Nat) (t1 t2 : Int)
    (p1 p2 : Option Bytes) (q1 q2 : Option Int) (hv1 : v1.Sized) (hv2 : v2.Sized)
    (a1 : 10 ^ k ≤ t1) (b1 : t1 < 10 ^ (k + 1)) (a2 : 10 ^ k ≤ t2) (b2 : t2 < 10 ^ (k + 1))
    (hp1 : ∀ p, p1 = some p → p.length = 64) (hp2 : ∀ p, p2 = some p → p.length = 64)
    (hq1 : ∀ q, q1 = some q → 0 < q ∧ q < 256 ^ 63) (hq2 : ∀ q, q2 = some q → 0 < q ∧ q < 256 ^ 63)
    (h : (commitNow S mv v1 t1 p1 q1).hash = (commitNow S mv v2 t2 p2 q2).hash) :
    (v1.head = v2.head ∧ t1 = t2 ∧ p1 = p2 ∧ q1 = q2) ∨ ∃ x y : Bytes, x ≠ y ∧ S.f x = S.f y := by
  by_cases hcol : ∃ x y : Bytes, x ≠ y ∧ S.f x = S.f y
  · exact .inr hcol
  left
  have hinj : ∀ x y : Bytes, S.f x = S.f y → x = y := by
    intro x y hxy
    by_contra hne
    exact hcol ⟨x, y, hne, hxy⟩
  have d1 := decInt_length_eq t1 k a1 b1
  have d2 := decInt_length_eq t2 k a2 b2
  have hl1 := hv1.1
  have hl2 := hv2.1
  simp only [commitNow, commitHash, Hash.fromMultiBytes_eq] at h
  rw [Hash.fromBytes_of_ne, Hash.fromBytes_of_ne] at h
  · have h := hinj _ _ h
    simp only [List.cons_append, List.nil_append, List.flatten_cons, List.flatten_append] at h
    obtain ⟨h1, h⟩ := List.append_inj h (by rw [hl1, hl2])
    obtain ⟨h2, h⟩ := List.append_inj h (by rw [d1, d2])
    have hL := congrArg List.length h
    refine ⟨h1, decInt_inj h2, ?_⟩
    have x1 : ∀ x, p1 = some x → x.length = 64 := hp1
    have x2 : ∀ x, p2 = some x → x.length = 64 := hp2
    clear hp1 hp2 h1 h2 hinj hcol hl1 hl2 d1 d2
    cases q1 with
    | none =>
      cases q2 with
      | none =>
        refine ⟨?_, rfl⟩
        cases p1 with
        | none =>
          cases p2 with
          | none => rfl
          | some y =>
            have := x2 y rfl
            simp only [List.flatten_cons, List.flatten_nil, List.length_append, List.length_nil] at hL
            omega
        | some x =>
          have := x1 x rfl
          cases p2 with
          | none =>
            simp only [List.flatten_cons, List.flatten_nil, List.length_append, List.length_nil] at hL
            omega
          | some y => simpa using h
      | some b =>
        have l2 := bigBytes_length_bounds b (hq2 b rfl).1 (hq2 b rfl).2
        exfalso
        cases p1 with
        | none => cases p2 <;> simp only [List.flatten_cons, List.flatten_nil, List.length_append, List.length_nil] at hL <;> omega
        | some x =>
          have := x1 x rfl
          cases p2 with
          | none => simp only [List.flatten_cons, List.flatten_nil, List.length_append, List.length_nil] at hL; omega
          | some y =>
            have := x2 y rfl
            simp only [List.flatten_cons, List.flatten_nil, List.length_append, List.length_nil] at hL
            omega
    | some a =>
      have l1 := bigBytes_length_bounds a (hq1 a rfl).1 (hq1 a rfl).2
      cases q2 with
      | none =>
        exfalso
        cases p2 with
        | none => cases p1 <;> simp only [List.flatten_cons, List.flatten_nil, List.length_append, List.length_nil] at hL <;> omega
        | some y =>
          have := x2 y rfl
          cases p1 with
          | none => simp only [List.flatten_cons, List.flatten_nil, List.length_append, List.length_nil] at hL; omega
          | some x =>
            have := x1 x rfl
            simp only [List.flatten_cons, List.flatten_nil, List.length_append, List.length_nil] at hL
            omega
      | some b =>
        have l2 := bigBytes_length_bounds b (hq2 b rfl).1 (hq2 b rfl).2
        have hab : bigBytes a = bigBytes b → a = b := fun e => by
          have e := congrArg bigOfBytes e
          rw [bigOfBytes_bigBytes, bigOfBytes_bigBytes] at e
          have := (hq1 a rfl).1
          have := (hq2 b rfl).1
          omega
        cases p1 with
        | none =>
          cases p2 with
          | none => exact ⟨rfl, by rw [hab (by simpa using h)]⟩
          | some y =>
            have := x2 y rfl
            simp only [List.flatten_cons, List.flatten_nil, List.length_append, List.length_nil] at hL
            omega
        | some x =>
          have hx := x1 x rfl
          cases p2 with
          | none =>
            simp only [List.flatten_cons, List.flatten_nil, List.length_append, List.length_nil] at hL
            omega
          | some y =>
            have hy := x2 y rfl
            simp only [List.flatten_cons, List.flatten_nil, List.append_nil] at h
            obtain ⟨h3, h4⟩ := List.append_inj h (by rw [hx, hy])
            exact ⟨by rw [h3], by rw [hab h4]⟩
  · simp
    omega
  · simp
    omega

example : (10 ^ 18 : Int) ≤ 1666000000000000000 ∧ (1666000000000000000 : Int) < 10 ^ (18 + 1) ∧ sampleTree.Sized ∧
    (0 : Int) < 123456 ∧ (123456 : Int) < 256 ^ 63 :=
  ⟨by decide, by decide, sampleTree_sized, by decide, by decide⟩

/-- C18 (negation): for every digest function and every values tree, creation time 1 with proof 51 and creation time 13
without a proof have the same hash (the decimal time and the proof bytes are concatenated without a separator). -/
theorem C18_time_and_proof_ambiguous (S : Sha) (mv : UInt8) (v : HashTree.Tree) :
    (commitNow S mv v 1 none (some 51)).hash = (commitNow S mv v 13 none none).hash ∧
    (commitNow S mv v 1 none (some 51)).createdOn ≠ (commitNow S mv v 13 none none).createdOn := by
  refine ⟨?_, by simp [commitNow]⟩
  simp only [commitNow, commitHash, Hash.fromMultiBytes_eq]
  congr 1
  have e1 : decInt 1 = [49] := by simp [decInt, decNat]
  have e2 : decInt 13 = [49, 51] := by simp [decInt, decNat]
  have e3 : bigBytes 51 = [51] := by simp [bigBytes, natBE]
  simp [e1, e2, e3]

/-- C18 (negation): a commit with proof 0 and the same commit without a proof have the same hash. -/
theorem C18_zero_proof_ambiguous (S : Sha) (mv : UInt8) (v : HashTree.Tree) (t : Int) (p : Option Bytes) :
    (commitNow S mv v t p (some 0)).hash = (commitNow S mv v t p none).hash ∧
    (commitNow S mv v t p (some 0)).mine ≠ (commitNow S mv v t p none).mine := by
  refine ⟨?_, by simp [commitNow]⟩
  simp only [commitNow, commitHash, Hash.fromMultiBytes_eq]
  congr 1
  have e3 : bigBytes 0 = [] := by simp [bigBytes, natBE]
  simp [e3]

/-- C18 (negation): a parent and a 64-byte proof with the same bytes are not distinguished. -/
theorem C18_parent_and_proof_ambiguous (S : Sha) (mv : UInt8) (v : HashTree.Tree) (t : Int) (proof : Int) :
    (commitNow S mv v t (some (bigBytes proof)) none).hash = (commitNow S mv v t none (some proof)).hash := by
  simp only [commitNow, commitHash, Hash.fromMultiBytes_eq]
  congr 1

theorem natBE_pow (k : Nat) : (natBE (256 ^ k)).length = k + 1 := by
  induction k with
  | zero => simp [natBE]
  | succ k ih =>
    unfold natBE
    rw [if_neg (by have := Nat.pow_pos (n := k + 1) (show 0 < 256 by decide); omega), Nat.pow_succ,
      Nat.mul_div_cancel _ (by decide)]
    simp [ih]

-- a proof whose bytes have the size of a hash, so that the two commits above are both well-formed
example : (bigBytes ((256 ^ 63 : Nat) : Int)).length = 64 := natBE_pow 63

/-- C19: non-empty commit lists round-trip. -/
theorem C19_commits_round_trip (S : Sha) (mv : UInt8) (L : List Commit) (hne : L ≠ []) (hL : ∀ c ∈ L, c.WF S mv)
    (tail : Bytes) :
    ∃ k, commitsNow L = .ok k ∧ k.list = L ∧ toCommits S mv ⟨commitsToContent k, tail⟩ = .ok k := by
  have h : commitsNow L = .ok ⟨GoMap.ofList (fun k => Hash.toString k.hash) L, L⟩ := by
    unfold commitsNow
    rw [if_neg]
    cases L with
    | nil => exact absurd rfl hne
    | cons _ _ => simp
  exact ⟨_, h, rfl, toCommits_commitsToContent S mv _ L h hL tail⟩

theorem sampleCommitAt_wf (S : Sha) (now : Int) (h1 : -2 ^ 63 ≤ now) (h2 : now < 2 ^ 63) :
    (commitNow S 7 sampleTree now (some (List.replicate 64 3)) none).WF S 7 where
  built := rfl
  sized := sampleTree_sized
  timeLo := h1
  timeHi := h2
  parent := by
    intro p hp
    injection hp with hp
    rw [← hp, List.length_replicate]
  proof := by
    intro m hm
    cases hm
  small := by
    simp only [commitToContent, commitNow, HashTree.toContent, HashTree.parentToContent, HashTree.leafToContent, sampleTree,
      proofPart, parentPart, List.length_append, le64_length, List.length_cons, List.length_replicate, Option.map_none,
      List.length_nil]
    omega

example (S : Sha) : ∃ k, commitsNow [commitNow S 7 sampleTree 5 (some (List.replicate 64 3)) none,
      commitNow S 7 sampleTree 6 (some (List.replicate 64 3)) none] = .ok k ∧
    toCommits S 7 ⟨commitsToContent k, [9]⟩ = .ok k := by
  obtain ⟨k, h, _, h'⟩ := C19_commits_round_trip S 7 [commitNow S 7 sampleTree 5 (some (List.replicate 64 3)) none,
    commitNow S 7 sampleTree 6 (some (List.replicate 64 3)) none] (by simp) (by
      intro c hc
      rcases List.mem_cons.mp hc with rfl | hc
      · exact sampleCommitAt_wf S 5 (by decide) (by decide)
      · rw [List.mem_singleton.mp hc]
        exact sampleCommitAt_wf S 6 (by decide) (by decide)) [9]
  exact ⟨k, h, h'⟩

/-- C19: whole references round-trip. -/
theorem C19_reference_round_trip (S : Sha) (mv : UInt8) (K : List ContentKey) (C : List Commit) (keys : ContentKeys)
    (commits : Commits) (hk : contentKeysNow K = .ok keys) (hc : commitsNow C = .ok commits)
    (hK : ∀ k ∈ K, k.WF) (hC : ∀ c ∈ C, c.WF S mv)
    (hsmall : (referenceToContent ⟨keys, commits⟩).length < 2 ^ 63) (tail : Bytes) :
    toReference S mv ⟨referenceToContent ⟨keys, commits⟩, tail⟩ = .ok ⟨keys, commits⟩ := by
  obtain ⟨_, rfl⟩ := contentKeysNow_ok hk
  obtain ⟨_, rfl⟩ := commitsNow_ok hc
  exact toReference_referenceToContent S mv _ ⟨hk, hc, hK, hC, hsmall⟩ tail

/-- A well-formed commit for every digest function, used to show that hypotheses are satisfiable. -/
theorem sampleCommit_wf (S : Sha) : (commitNow S 7 sampleTree 5 (some (List.replicate 64 3)) none).WF S 7 := by
  constructor
  · rfl
  · exact sampleTree_sized
  · simp [commitNow]
  · simp [commitNow]
  · intro p hp
    simp only [commitNow, Option.some.injEq] at hp
    simp [← hp]
  · intro m hm; simp [commitNow] at hm
  · simp [commitToContent, commitNow, HashTree.toContent, HashTree.parentToContent, HashTree.leafToContent, sampleTree,
    proofPart, parentPart]

-- a reference with two keys and one commit meets the hypotheses of C19
example (S : Sha) : ∃ keys commits, contentKeysNow [sampleKey, sampleKey2] = .ok keys ∧
    commitsNow [commitNow S 7 sampleTree 5 (some (List.replicate 64 3)) none] = .ok commits ∧
    (referenceToContent ⟨keys, commits⟩).length < 2 ^ 63 := by
  refine ⟨_, _, rfl, rfl, ?_⟩
  simp [referenceToContent, contentKeysToContent, commitsToContent, contentKeyToContent, pointerToContent, sampleKey, sampleKey2,
    commitToContent, commitNow, HashTree.toContent, HashTree.parentToContent, HashTree.leafToContent, sampleTree,
    proofPart, parentPart]

/-- C20: the latest commit of a built list is its last element. -/
theorem C20_latest (L : List Commit) (c : Commit) (k : Commits) (hk : commitsNow (L ++ [c]) = .ok k) :
    k.latest = .ok c := by
  obtain ⟨_, rfl⟩ := commitsNow_ok hk
  simp [Commits.latest]

example (S : Sha) : ∃ k, commitsNow ([commitNow S 7 sampleTree 5 none none] ++ [commitNow S 7 sampleTree 6 none none]) = .ok k ∧
    k.latest = .ok (commitNow S 7 sampleTree 6 none none) :=
  ⟨_, rfl, C20_latest [commitNow S 7 sampleTree 5 none none] _ _ rfl⟩

/-- C20: looking a commit up returns the last commit of the list with that hash and fails exactly when there is none. -/
theorem C20_fetch (L : List Commit) (k : Commits) (hk : commitsNow L = .ok k) (h : Bytes) :
    (∀ x, k.fetch h = .ok x ↔ IsLast (fun y => y.hash = h) L x) ∧
    (k.fetch h = .err ↔ ∀ x ∈ L, x.hash ≠ h) ∧ k.fetch h ≠ .panic ∧ k.latest ≠ .panic := by
  obtain ⟨hne, rfl⟩ := commitsNow_ok hk
  have e : Commits.fetch ⟨GoMap.ofList (fun k => Hash.toString k.hash) L, L⟩ h =
      match L.reverse.find? (fun x => decide (x.hash = h)) with | some x => .ok x | none => .err := by
    unfold Commits.fetch
    rw [GoMap.get_ofList, find_hash_eq (fun k : Commit => k.hash)]
    cases L.reverse.find? (fun x => decide (x.hash = h)) <;> rfl
  rw [e]
  have hl : Commits.latest ⟨GoMap.ofList (fun k => Hash.toString k.hash) L, L⟩ ≠ .panic := by
    unfold Commits.latest
    rw [List.getLast?_eq_getLast_of_ne_nil hne]
    simp
  cases hf : L.reverse.find? (fun x => decide (x.hash = h)) with
  | some y =>
    refine ⟨fun x => ?_, ?_, by simp, hl⟩
    · rw [← isLast_iff, hf]; simp
    · have h1 := List.mem_of_find?_eq_some hf
      have h2 := List.find?_some hf
      constructor
      · intro h; cases h
      · intro hall
        exact absurd (by simpa using h2) (hall y (by simpa using h1))
  | none =>
    refine ⟨fun x => ?_, ?_, by simp, hl⟩
    · rw [← isLast_iff, hf]; simp
    · rw [List.find?_eq_none] at hf
      simp only [true_iff]
      intro x hx
      simpa using hf x (by simpa using hx)

example (S : Sha) : ∃ k, commitsNow ([] ++ [commitNow S 7 sampleTree 5 none none]) = .ok k := ⟨_, rfl⟩

/-- C21: a commit built with a proof is mined: its result is the hash of its own hash followed by the proof bytes, and the
score is the length of the longest prefix of the result made of the mining byte only. -/
theorem C21_score (S : Sha) (mv : UInt8) (v : HashTree.Tree) (t : Int) (p : Option Bytes) (proof : Int) :
    ∃ m, (commitNow S mv v t p (some proof)).mine = some m ∧ m.proof = proof ∧
      m.result = Hash.fromBytes S ((commitNow S mv v t p (some proof)).hash ++ bigBytes proof) ∧
      m.score ≤ m.result.length ∧ (∀ i, (h : i < m.result.length) → i < m.score → m.result[i] = mv) ∧
      ((h : m.score < m.result.length) → m.result[m.score] ≠ mv) := by
  refine ⟨_, rfl, rfl, ?_, ?_⟩
  · simp [Hash.fromMultiBytes_eq]; rfl
  · simp only
    generalize Hash.fromMultiBytes S [commitHash S v.head t p (some proof), bigBytes proof] = r
    induction r with
    | nil => simp [scoreOf]
    | cons b bs ih =>
      obtain ⟨i1, i2, i3⟩ := ih
      by_cases hb : b = mv
      · simp only [scoreOf, hb, if_true, List.length_cons]
        refine ⟨by omega, ?_, ?_⟩
        · intro i h1 h2
          cases i with
          | zero => simp
          | succ i =>
            simp only [List.getElem_cons_succ]
            exact i2 i (by simpa using h1) (by omega)
        · intro h
          simp only [List.getElem_cons_succ]
          exact i3 (by omega)
      · simp [scoreOf, hb]

-- a result with a score that is neither 0 nor maximal
example : scoreOf 7 [7, 7, 1, 7] = 2 := by decide

/-- C22: contents and content lists round-trip. -/
theorem C22_contents_round_trip (S : Sha) (L : List Content) (hne : L ≠ [])
    (hL : ∀ c ∈ L, c.hash.length = 64 ∧ c.data ≠ [] ∧ c.kind < 2 ^ 64 ∧ (contentToContent c).length < 2 ^ 63)
    (tail : Bytes) :
    toContentsInstance S ⟨contentsToContent L, tail⟩ = .ok L := by
  unfold toContentsInstance
  have hlen : 81 ≤ (contentsToContent L).length := by
    match L, hne, hL with
    | x :: xs, _, hL =>
      obtain ⟨h1, h2, _⟩ := hL x (by simp)
      have := List.length_pos_iff.mpr h2
      simp [contentsToContent, contentToContent, h1]; omega
  rw [if_neg (by simp only [Slice.len, minContentsSize, minContentSize]; omega)]
  rw [contentsLoop_spec S L tail (fun c hc => ⟨⟨(hL c hc).1, (hL c hc).2.1, (hL c hc).2.2.1⟩, (hL c hc).2.2.2⟩)]
  simp [hne]

example (S : Sha) : toContentsInstance S ⟨contentsToContent [⟨List.replicate 64 1, [5, 6], 3⟩, ⟨List.replicate 64 2, [7], 0⟩], [9]⟩ =
    .ok [⟨List.replicate 64 1, [5, 6], 3⟩, ⟨List.replicate 64 2, [7], 0⟩] :=
  C22_contents_round_trip S _ (by simp) (by decide) [9]

/-- C22: a single content round-trips; empty data is refused by the builder. -/
theorem C22_content_round_trip (S : Sha) (c : Content) (h1 : c.hash.length = 64) (h2 : c.data ≠ []) (h3 : c.kind < 2 ^ 64)
    (tail : Bytes) : toContentInstance S ⟨contentToContent c, tail⟩ = .ok c ∧ contentNow c.hash [] c.kind = .err :=
  ⟨toContentInstance_contentToContent S c ⟨h1, h2, h3⟩ tail, rfl⟩

example : ∀ c ∈ ([⟨List.replicate 64 1, [5, 6], 3⟩, ⟨List.replicate 64 2, [7], 0⟩] : List Content),
    c.hash.length = 64 ∧ c.data ≠ [] ∧ c.kind < 2 ^ 64 ∧ (contentToContent c).length < 2 ^ 63 := by decide

/-- C65 (negation): decoding untrusted bytes as a reference can panic (360 bytes, all 255: the size check compares a
negative number). -/
theorem C65_reference_decode_panics (S : Sha) (mv : UInt8) :
    toReference S mv (Slice.ofBytes (List.replicate 360 255)) = .panic := by
  unfold toReference
  rw [if_neg (by simp [Slice.ofBytes, Slice.len, minReferenceSize, contentKeySize, commitMinSize])]
  have e1 := Slice.sub_zero_append (List.replicate 8 255) (List.replicate 352 255) []
  have e : List.replicate 8 (255 : UInt8) ++ List.replicate 352 255 = List.replicate 360 255 := by
    rw [List.replicate_append_replicate]
  rw [e] at e1
  simp only [List.length_replicate] at e1
  have e4 : leNat (List.replicate 8 255) = 2 ^ 64 - 1 := by decide
  simp only [Slice.ofBytes, section', Nat.zero_add, e1, Res.bind_ok, e4]
  rw [if_pos (by decide)]
  rfl

/-- C65 (negation): decoding untrusted bytes as content keys can panic: the count field is not checked. -/
theorem C65_keys_decode_panics (S : Sha) :
    toContentKeys S (Slice.ofBytes (le64 2 ++ contentKeyToContent sampleKey)) = .panic := by
  have h1 : (contentKeyToContent sampleKey).length = 152 := contentKeyToContent_length _ (by decide)
  unfold toContentKeys
  rw [if_neg (by simp [Slice.ofBytes, Slice.len, contentKeySize, h1])]
  have e1 := Slice.sub_zero_append (le64 2) (contentKeyToContent sampleKey) []
  have e2 := Slice.sub_append (le64 2) (contentKeyToContent sampleKey) [] []
  simp only [le64_length, h1, List.append_nil] at e1 e2
  simp only [Slice.ofBytes, e1, Res.bind_ok, leNat_le64 2 (by decide)]
  rw [if_pos (by decide)]
  simp only [contentKeysLoop, contentKeySize]
  norm_num
  rw [e2]
  simp only [Res.bind_ok, toContentKey_contentKeyToContent S sampleKey (by decide)]
  have e3 : Slice.sub ⟨le64 2 ++ contentKeyToContent sampleKey, []⟩ 160 312 = .panic := by
    unfold Slice.sub
    rw [if_neg]
    simp [Slice.cap, h1]
  rw [e3]
  rfl

/-- C65 (partial): content that is too short is rejected with an error, and everything the encoder writes decodes.
Missing: arbitrary bytes, for which a panic is possible. -/
theorem C65_reference_decode_no_panic_partial (S : Sha) (mv : UInt8) (c : Slice)
    (h : c.len < 360 ∨ ∃ r : Reference, r.WF S mv ∧ c.vis = referenceToContent r) : toReference S mv c ≠ .panic := by
  rcases h with h | ⟨r, hr, hv⟩
  · unfold toReference
    rw [if_pos (by simpa [minReferenceSize, contentKeySize, commitMinSize] using h)]
    simp
  · have e : c = ⟨referenceToContent r, c.tail⟩ := by rw [← hv]
    rw [e, toReference_referenceToContent S mv r hr]
    simp

example (S : Sha) : toReference S 7 (Slice.ofBytes (List.replicate 359 255)) ≠ .panic :=
  C65_reference_decode_no_panic_partial S 7 _ (.inl (by rw [Slice.ofBytes, Slice.len, List.length_replicate]; decide))

end Rodkina.Props
