import Verif.References
import Verif.HashTreeLemmas2
import Mathlib.Tactic.NormNum
/-! Helper lemmas for the references and contents models. -/

namespace Rodkina

theorem toU64_lt (i : Int) : toU64 i < 2 ^ 64 := by
  unfold toU64
  have h1 := Int.emod_lt_of_pos i (show (0 : Int) < 2 ^ 64 by decide)
  have h2 := Int.emod_nonneg i (show (2 ^ 64 : Int) ≠ 0 by decide)
  omega

theorem ofU64_toU64 (i : Int) (h1 : -2 ^ 63 ≤ i) (h2 : i < 2 ^ 63) : ofU64 (toU64 i) = i := by
  unfold ofU64 toU64
  by_cases h : 0 ≤ i
  · rw [Int.emod_eq_of_lt h (by omega)]
    split <;> omega
  · have e : i % 2 ^ 64 = i + 2 ^ 64 := by omega
    rw [e]
    split <;> omega

/-! ### Decimal -/

/-- Reads decimal digits back. -/
def undec (b : Bytes) : Nat := b.foldl (fun a x => 10 * a + (x.toNat - 48)) 0

theorem undec_append (a : Bytes) (x : UInt8) : undec (a ++ [x]) = 10 * undec a + (x.toNat - 48) := by
  simp [undec]

theorem undec_decNat (n : Nat) : undec (decNat n) = n := by
  induction n using Nat.strongRecOn with
  | ind n ih =>
    unfold decNat
    split
    · rename_i h
      simp [undec, UInt8.toNat_ofNat']
      omega
    · rw [undec_append, ih _ (by omega), UInt8.toNat_ofNat']
      omega

theorem decNat_inj {a b : Nat} (h : decNat a = decNat b) : a = b := by
  rw [← undec_decNat a, ← undec_decNat b, h]

theorem decNat_digits (n : Nat) : ∀ x ∈ decNat n, 48 ≤ x.toNat ∧ x.toNat ≤ 57 := by
  induction n using Nat.strongRecOn with
  | ind n ih =>
    unfold decNat
    split
    · intro x hx
      simp only [List.mem_singleton] at hx
      subst hx
      rw [UInt8.toNat_ofNat']
      omega
    · intro x hx
      simp only [List.mem_append, List.mem_singleton] at hx
      rcases hx with hx | hx
      · exact ih _ (by omega) x hx
      · subst hx; rw [UInt8.toNat_ofNat']; omega

theorem decNat_ne_nil (n : Nat) : decNat n ≠ [] := by
  unfold decNat
  split <;> simp

theorem decNat_length_le (k n : Nat) (h : n < 10 ^ (k + 1)) : (decNat n).length ≤ k + 1 := by
  induction k generalizing n with
  | zero =>
    unfold decNat
    rw [if_pos (by omega)]
    simp
  | succ k ih =>
    unfold decNat
    split
    · simp
    · have := ih (n / 10) (by rw [Nat.pow_succ] at h; omega)
      simp; omega

theorem decInt_length_le (i : Int) (h1 : -2 ^ 63 ≤ i) (h2 : i < 2 ^ 63) : (decInt i).length ≤ 20 := by
  unfold decInt
  have := decNat_length_le 18 i.natAbs (by omega)
  split
  · simp; omega
  · omega

theorem decNat_length_eq (k : Nat) : ∀ n, 10 ^ k ≤ n → n < 10 ^ (k + 1) → (decNat n).length = k + 1 := by
  induction k with
  | zero =>
    intro n _ h
    unfold decNat
    rw [if_pos (by simpa using h)]
    rfl
  | succ k ih =>
    intro n h1 h2
    have := Nat.pow_pos (n := k) (show 0 < 10 by decide)
    rw [Nat.pow_succ] at h1 h2
    unfold decNat
    rw [if_neg (by omega), List.length_append, ih (n / 10) (by omega) (by omega)]
    rfl

theorem decInt_length_eq (i : Int) (k : Nat) (h1 : 10 ^ k ≤ i) (h2 : i < 10 ^ (k + 1)) : (decInt i).length = k + 1 := by
  have h0 : (0 : Int) < 10 ^ k := by positivity
  unfold decInt
  rw [if_neg (by omega)]
  have e : ((i.natAbs : Nat) : Int) = i := by omega
  apply decNat_length_eq
  · have : ((10 ^ k : Nat) : Int) ≤ (i.natAbs : Nat) := by rw [e]; push_cast; exact h1
    exact_mod_cast this
  · have : ((i.natAbs : Nat) : Int) < (10 ^ (k + 1) : Nat) := by rw [e]; push_cast; exact h2
    exact_mod_cast this

theorem natBE_length_le (k : Nat) : ∀ n, n < 256 ^ k → (natBE n).length ≤ k := by
  induction k with
  | zero =>
    intro n h
    have : n = 0 := by simpa using h
    subst this
    simp [natBE]
  | succ k ih =>
    intro n h
    unfold natBE
    split
    · simp
    · rw [Nat.pow_succ] at h
      have := ih (n / 256) (by omega)
      simp only [List.length_append, List.length_cons, List.length_nil]
      omega

theorem bigBytes_length_bounds (i : Int) (h1 : 0 < i) (h2 : i < 256 ^ 63) :
    0 < (bigBytes i).length ∧ (bigBytes i).length ≤ 63 := by
  constructor
  · unfold bigBytes natBE
    rw [if_neg (by omega)]
    simp
  · apply natBE_length_le
    omega

theorem decInt_length_pos (i : Int) : 0 < (decInt i).length := by
  unfold decInt
  have := List.length_pos_iff.mpr (decNat_ne_nil i.natAbs)
  split
  · simp
  · omega

theorem decNat_no_minus (n : Nat) (r : Bytes) : decNat n ≠ 45 :: r := by
  intro h
  have := (decNat_digits n 45 (by rw [h]; simp)).1
  simp at this

theorem decInt_inj {a b : Int} (h : decInt a = decInt b) : a = b := by
  unfold decInt at h
  split at h <;> split at h
  · injection h with _ h
    have := decNat_inj h
    omega
  · exact absurd h.symm (decNat_no_minus _ _)
  · exact absurd h (decNat_no_minus _ _)
  · have := decNat_inj h
    omega

/-! ### Big integers -/

theorem bigOfBytes_append (a : Bytes) (x : UInt8) : bigOfBytes (a ++ [x]) = 256 * bigOfBytes a + x.toNat := by
  simp [bigOfBytes]

theorem bigOfBytes_natBE (n : Nat) : bigOfBytes (natBE n) = n := by
  induction n using Nat.strongRecOn with
  | ind n ih =>
    unfold natBE
    split
    · rename_i h; subst h; rfl
    · rw [bigOfBytes_append, ih _ (by omega), UInt8.toNat_ofNat']
      omega

theorem bigOfBytes_bigBytes (i : Int) : bigOfBytes (bigBytes i) = i.natAbs := bigOfBytes_natBE _

theorem bigBytes_inj_abs {a b : Int} (h : bigBytes a = bigBytes b) : a.natAbs = b.natAbs := by
  have := congrArg bigOfBytes h
  rw [bigOfBytes_bigBytes, bigOfBytes_bigBytes] at this
  omega

namespace Ref

open Rodkina

/-! ### Pointers and keys -/

/-- A pointer as the builder makes it: 64-bit fields, positive length. -/
def Pointer.WF (p : Pointer) : Prop := p.from' < 2 ^ 64 ∧ p.length < 2 ^ 64 ∧ 0 < p.length

/-- A content key of 64-byte hashes and 64-bit numbers. -/
def ContentKey.WF (k : ContentKey) : Prop :=
  k.hash.length = 64 ∧ k.kind < 2 ^ 64 ∧ k.content.WF ∧ k.commit.length = 64

instance (p : Pointer) : Decidable p.WF := inferInstanceAs (Decidable (_ ∧ _ ∧ _))
instance (p : ContentKey) : Decidable p.WF := inferInstanceAs (Decidable (_ ∧ _ ∧ _ ∧ _))

theorem pointerToContent_length (p : Pointer) : (pointerToContent p).length = 16 := by
  simp [pointerToContent]

theorem toPointer_pointerToContent (p : Pointer) (h : p.WF) (tail : Bytes) :
    toPointer ⟨pointerToContent p, tail⟩ = .ok p := by
  obtain ⟨h1, h2, h3⟩ := h
  unfold toPointer
  rw [if_neg (by simp [Slice.len, pointerToContent_length, pointerSize])]
  have e1 := Slice.sub_zero_append (le64 p.from') (le64 p.length) tail
  have e2 := Slice.from_append (le64 p.from') (le64 p.length) tail
  simp only [le64_length] at e1 e2
  unfold pointerToContent
  rw [e1, e2]
  simp [leNat_le64 _ h1, leNat_le64 _ h2, pointerNow]
  omega

theorem contentKeyToContent_length (k : ContentKey) (h : k.WF) : (contentKeyToContent k).length = 152 := by
  obtain ⟨h1, h2, h3, h4⟩ := h
  simp [contentKeyToContent, pointerToContent_length, h1, h4]

theorem toContentKey_contentKeyToContent (S : Sha) (k : ContentKey) (h : k.WF) (tail : Bytes) :
    toContentKey S ⟨contentKeyToContent k, tail⟩ = .ok k := by
  have hl := contentKeyToContent_length k h
  obtain ⟨h1, h2, h3, h4⟩ := h
  unfold toContentKey
  rw [if_neg (by simp [Slice.len, hl, contentKeySize])]
  have e1 := Slice.sub_zero_append k.hash (le64 k.kind ++ (pointerToContent k.content ++ k.commit)) tail
  have e2 := Slice.sub_append k.hash (le64 k.kind) (pointerToContent k.content ++ k.commit) tail
  have e3 := Slice.sub_append (k.hash ++ le64 k.kind) (pointerToContent k.content) k.commit tail
  have e4 := Slice.sub_append (k.hash ++ le64 k.kind ++ pointerToContent k.content) k.commit [] tail
  simp only [List.append_assoc, List.length_append, le64_length, pointerToContent_length, h1, h4, List.append_nil] at e1 e2 e3 e4
  norm_num at e1 e2 e3 e4
  unfold contentKeyToContent
  simp only [List.append_assoc]
  rw [e1, e2, e3, e4]
  simp [leNat_le64 _ h2, toPointer_pointerToContent _ h3, Hash.fromBytes_of_len h1, Hash.fromBytes_of_len h4]

theorem contentKeysLoop_spec (S : Sha) (L : List ContentKey) (pre : List ContentKey) (hd tail : Bytes)
    (hhd : hd.length = 8) (hpre : ∀ k ∈ pre, k.WF) (hL : ∀ k ∈ L, k.WF) :
    contentKeysLoop S ⟨hd ++ (pre ++ L).flatMap contentKeyToContent, tail⟩ L.length pre.length = .ok L := by
  induction L generalizing pre with
  | nil => rfl
  | cons x xs ih =>
    have hx := hL x (by simp)
    have hxl := contentKeyToContent_length x hx
    have hpl : (pre.flatMap contentKeyToContent).length = pre.length * 152 := by
      clear ih
      induction pre with
      | nil => rfl
      | cons a as ih2 =>
        simp only [List.flatMap_cons, List.length_append, List.length_cons]
        rw [ih2 (fun k hk => hpre k (by simp [hk])), contentKeyToContent_length a (hpre a (by simp))]
        omega
    have e1 := Slice.sub_append (hd ++ pre.flatMap contentKeyToContent) (contentKeyToContent x)
      (xs.flatMap contentKeyToContent) tail
    simp only [List.length_append, hhd, hpl, hxl, List.append_assoc] at e1
    have ih' := ih (pre ++ [x]) (by
      intro k hk
      simp only [List.mem_append, List.mem_singleton] at hk
      rcases hk with hk | rfl
      · exact hpre k hk
      · exact hx) (fun k hk => hL k (by simp [hk]))
    simp only [List.append_assoc, List.length_append, List.length_singleton, List.singleton_append] at ih'
    simp only [List.length_cons, contentKeysLoop, contentKeySize]
    rw [show (64 + 16 + 8 + 64) = 152 from rfl]
    have e0 : (pre ++ x :: xs).flatMap contentKeyToContent =
        pre.flatMap contentKeyToContent ++ (contentKeyToContent x ++ xs.flatMap contentKeyToContent) := by simp
    rw [e0] at ih' ⊢
    rw [e1]
    simp only [Res.bind_ok, toContentKey_contentKeyToContent S x hx]
    rw [ih']
    rfl

theorem flatMap_contentKey_length (L : List ContentKey) (hL : ∀ k ∈ L, k.WF) :
    (L.flatMap contentKeyToContent).length = L.length * 152 := by
  induction L with
  | nil => rfl
  | cons a as ih2 =>
    simp only [List.flatMap_cons, List.length_append, List.length_cons]
    rw [ih2 (fun k hk => hL k (by simp [hk])), contentKeyToContent_length a (hL a (by simp))]
    omega

theorem toContentKeys_contentKeysToContent (S : Sha) (k : ContentKeys) (L : List ContentKey)
    (hk : contentKeysNow L = .ok k) (hL : ∀ x ∈ L, x.WF) (hn : L.length < 2 ^ 63) (tail : Bytes) :
    toContentKeys S ⟨contentKeysToContent k, tail⟩ = .ok k := by
  unfold contentKeysNow at hk
  split at hk
  · cases hk
  rename_i hne
  injection hk with hk
  have hkl : k.list = L := by rw [← hk]
  have hlen : (contentKeysToContent k).length = 8 + L.length * 152 := by
    simp only [contentKeysToContent, List.length_append, le64_length, hkl, flatMap_contentKey_length L hL]
  have hpos : 0 < L.length := by
    rw [List.length_pos_iff]
    intro h
    simp [h] at hne
  unfold toContentKeys
  rw [if_neg (by simp only [Slice.len, hlen, contentKeySize]; omega)]
  have e1 := Slice.sub_zero_append (le64 L.length) (L.flatMap contentKeyToContent) tail
  have e2 := contentKeysLoop_spec S L [] (le64 L.length) tail (by simp) (by simp) hL
  simp only [le64_length, List.nil_append, List.length_nil] at e1 e2
  unfold contentKeysToContent
  rw [hkl, e1]
  simp only [Res.bind_ok, leNat_le64 _ (show L.length < 2 ^ 64 by omega), if_pos hn, e2]
  unfold contentKeysNow
  rw [if_neg hne, hk]

/-! ### Commits -/

/-- Commits that the code can build and that fit in 64-bit sizes, with a proof that is not negative. -/
structure Commit.WF (S : Sha) (mv : UInt8) (c : Commit) : Prop where
  built : c = commitNow S mv c.values c.createdOn c.parent (c.mine.map Mine.proof)
  sized : c.values.Sized
  timeLo : -2 ^ 63 ≤ c.createdOn
  timeHi : c.createdOn < 2 ^ 63
  parent : ∀ p, c.parent = some p → p.length = 64
  proof : ∀ m, c.mine = some m → 0 ≤ m.proof
  small : (commitToContent c).length < 2 ^ 63

theorem tree_toContent_length_ge (t : HashTree.Tree) (h : t.Sized) : 200 ≤ (HashTree.toContent t).length := by
  have h1 := HashTree.leafToContent_length_ge h.2.1
  have h2 := HashTree.leafToContent_length_ge h.2.2
  simp [HashTree.toContent, HashTree.parentToContent, h.1]
  omega

theorem readParent_spec (S : Sha) (p : Option Bytes) (tail : Bytes) (hp : ∀ x, p = some x → x.length = 64) :
    readParent S ⟨parentPart p, tail⟩ = .ok p := by
  cases p with
  | none => simp [parentPart, readParent, Slice.len]
  | some p =>
    have e := Slice.from_append [1] p tail
    simp only [List.length_singleton, List.singleton_append] at e
    simp [parentPart, readParent, Slice.len, e, Hash.fromBytes_of_len (hp p rfl)]

theorem readProof_none (p : Option Bytes) (tail : Bytes) :
    readProof ⟨parentPart p, tail⟩ =
      .ok (none, ⟨parentPart p, tail⟩) := by
  cases p with
  | none => simp [parentPart, readProof, Slice.len]
  | some p =>
    have e := Slice.sub_zero_append [1] p tail
    simp only [List.length_singleton, List.singleton_append] at e
    simp [parentPart, readProof, Slice.len, e]

theorem readProof_some (b rest : Bytes) (tail : Bytes) (hb : b.length < 2 ^ 64) :
    readProof ⟨0 :: (le64 b.length ++ b) ++ rest, tail⟩ = .ok (some (bigOfBytes b), ⟨rest, tail⟩) := by
  have e1 := Slice.sub_zero_append [0] (le64 b.length ++ b ++ rest) tail
  have e2 := Slice.from_append [0] (le64 b.length ++ b ++ rest) tail
  have e3 := Slice.sub_zero_append (le64 b.length) (b ++ rest) tail
  have e4 := Slice.sub_append (le64 b.length) b rest tail
  have e5 := Slice.from_append (le64 b.length ++ b) rest tail
  simp only [List.length_singleton, List.singleton_append, le64_length, List.append_assoc, List.length_append] at e1 e2 e3 e4 e5
  unfold readProof
  simp only [List.cons_append, List.append_assoc]
  rw [if_pos (by simp [Slice.len]), e1]
  simp only [Res.bind_ok, List.head?_cons, if_true, e2, e3, leNat_le64 _ hb, e4, e5, Res.pure_eq]

theorem toCommit_commitToContent_gen (S : Sha) (mv : UInt8) (c : Commit) (tail : Bytes)
    (hsized : c.values.Sized) (h1 : -2 ^ 63 ≤ c.createdOn) (h2 : c.createdOn < 2 ^ 63)
    (hp : ∀ p, c.parent = some p → p.length = 64) (hsmall : (commitToContent c).length < 2 ^ 63) :
    toCommit S mv ⟨commitToContent c, tail⟩ =
      .ok (commitNow S mv c.values c.createdOn c.parent (c.mine.map (fun m => (m.proof.natAbs : Int)))) := by
  have hge := tree_toContent_length_ge c.values hsized
  have hlen : 208 ≤ (commitToContent c).length := by
    simp [commitToContent]; omega
  have hvl : (HashTree.toContent c.values).length < 2 ^ 64 := by
    have : (HashTree.toContent c.values).length ≤ (commitToContent c).length := by
      simp [commitToContent]; omega
    omega
  have hc : commitToContent c = le64 (toU64 c.createdOn) ++ (le64 (HashTree.toContent c.values).length ++
      (HashTree.toContent c.values ++ (proofPart c.mine ++ parentPart c.parent))) := by
    unfold commitToContent
    simp only [List.append_assoc]
  have hprem : readProof ⟨proofPart c.mine ++ parentPart c.parent, tail⟩ =
      .ok (c.mine.map (fun m => (m.proof.natAbs : Int)), ⟨parentPart c.parent, tail⟩) := by
    cases hm : c.mine with
    | none =>
      simp only [proofPart, List.nil_append, readProof_none]
      rfl
    | some m =>
      simp only [proofPart]
      rw [readProof_some]
      · rw [bigOfBytes_bigBytes]; rfl
      · have : (bigBytes m.proof).length ≤ (commitToContent c).length := by
          rw [hc, hm]; simp [proofPart]; omega
        omega
  have hpar := readParent_spec S c.parent tail hp
  generalize proofPart c.mine = P at *
  generalize parentPart c.parent = Q at *
  have e1 := Slice.sub_zero_append (le64 (toU64 c.createdOn)) (le64 (HashTree.toContent c.values).length ++
      (HashTree.toContent c.values ++ (P ++ Q))) tail
  have e2 := Slice.sub_append (le64 (toU64 c.createdOn)) (le64 (HashTree.toContent c.values).length)
      (HashTree.toContent c.values ++ (P ++ Q)) tail
  have e3 := Slice.sub_append (le64 (toU64 c.createdOn) ++ le64 (HashTree.toContent c.values).length)
      (HashTree.toContent c.values) (P ++ Q) tail
  have e4 := Slice.from_append (le64 (toU64 c.createdOn) ++ (le64 (HashTree.toContent c.values).length ++
      HashTree.toContent c.values)) (P ++ Q) tail
  simp only [List.append_assoc, List.length_append, le64_length, ← Nat.add_assoc] at e1 e2 e3 e4
  norm_num at e1 e2 e3 e4
  unfold toCommit
  rw [if_neg (by simp only [Slice.len, commitMinSize]; omega), hc, e1, e2]
  simp only [Res.bind_ok, leNat_le64 _ hvl, e3, e4, HashTree.toHashTree_toContent S c.values hsized hvl, hprem, hpar,
    Res.pure_eq, leNat_le64 _ (toU64_lt _), ofU64_toU64 _ h1 h2]

theorem toCommit_commitToContent (S : Sha) (mv : UInt8) (c : Commit) (h : c.WF S mv) (tail : Bytes) :
    toCommit S mv ⟨commitToContent c, tail⟩ = .ok c := by
  rw [toCommit_commitToContent_gen S mv c tail h.sized h.timeLo h.timeHi h.parent h.small]
  conv => rhs; rw [h.built]
  congr 2
  cases hm : c.mine with
  | none => rfl
  | some m =>
    have := h.proof m hm
    simp
    omega

theorem commitsLoop_spec (S : Sha) (mv : UInt8) (L : List Commit) (pre tail : Bytes)
    (hL : ∀ c ∈ L, c.WF S mv) :
    commitsLoop S mv ⟨pre ++ L.flatMap (fun x => le64 (commitToContent x).length ++ commitToContent x), tail⟩ pre.length
      = .ok L := by
  induction L generalizing pre with
  | nil =>
    unfold commitsLoop
    simp [Slice.len]
  | cons x xs ih =>
    have hx := hL x (by simp)
    have hxs := hx.small
    have e1 := Slice.sub_append pre (le64 (commitToContent x).length)
      (commitToContent x ++ xs.flatMap (fun x => le64 (commitToContent x).length ++ commitToContent x)) tail
    have e2 := Slice.sub_append (pre ++ le64 (commitToContent x).length) (commitToContent x)
      (xs.flatMap (fun x => le64 (commitToContent x).length ++ commitToContent x)) tail
    have ih' := ih (pre ++ le64 (commitToContent x).length ++ commitToContent x) (fun y hy => hL y (by simp [hy]))
    simp only [List.append_assoc, List.length_append, le64_length, ← Nat.add_assoc] at e1 e2 ih'
    simp only [List.flatMap_cons, List.append_assoc]
    unfold commitsLoop
    rw [if_neg (by simp [Slice.len]), dif_neg (by simp [Slice.len])]
    rw [e1]
    simp only [Res.bind_ok, leNat_le64 _ (show (commitToContent x).length < 2 ^ 64 by omega), e2,
      toCommit_commitToContent S mv x hx, ih', Res.pure_eq]

theorem commitsNow_ok {L : List Commit} {k : Commits} (h : commitsNow L = .ok k) :
    L ≠ [] ∧ k = ⟨GoMap.ofList (fun k => Hash.toString k.hash) L, L⟩ := by
  unfold commitsNow at h
  split at h
  · cases h
  rename_i hne
  injection h with h
  exact ⟨by intro e; simp [e] at hne, h.symm⟩

theorem contentKeysNow_ok {L : List ContentKey} {k : ContentKeys} (h : contentKeysNow L = .ok k) :
    L ≠ [] ∧ k = ⟨GoMap.ofList (fun k => Hash.toString k.hash) L, L⟩ := by
  unfold contentKeysNow at h
  split at h
  · cases h
  rename_i hne
  injection h with h
  exact ⟨by intro e; simp [e] at hne, h.symm⟩

theorem commitToContent_length_ge (S : Sha) (mv : UInt8) (c : Commit) (h : c.WF S mv) :
    216 ≤ (commitToContent c).length := by
  have := tree_toContent_length_ge c.values h.sized
  simp [commitToContent]; omega

theorem toCommits_commitsToContent (S : Sha) (mv : UInt8) (k : Commits) (L : List Commit) (hk : commitsNow L = .ok k)
    (hL : ∀ c ∈ L, c.WF S mv) (tail : Bytes) : toCommits S mv ⟨commitsToContent k, tail⟩ = .ok k := by
  obtain ⟨hne, rfl⟩ := commitsNow_ok hk
  have hlen : 224 ≤ (L.flatMap (fun x => le64 (commitToContent x).length ++ commitToContent x)).length := by
    match L, hne, hL with
    | x :: xs, _, hL =>
      have := commitToContent_length_ge S mv x (hL x (by simp))
      simp; omega
  unfold toCommits
  rw [if_neg (by simp only [Slice.len, commitsToContent, commitMinSize]; omega)]
  have e := commitsLoop_spec S mv L [] tail hL
  simp only [List.nil_append, List.length_nil] at e
  simp only [commitsToContent, e, Res.bind_ok, hk]

/-! ### References -/

/-- A reference the code can build, whose sizes fit. -/
structure Reference.WF (S : Sha) (mv : UInt8) (r : Reference) : Prop where
  keysBuilt : contentKeysNow r.contentKeys.list = .ok r.contentKeys
  commitsBuilt : commitsNow r.commits.list = .ok r.commits
  keys : ∀ k ∈ r.contentKeys.list, k.WF
  commits : ∀ c ∈ r.commits.list, c.WF S mv
  small : (referenceToContent r).length < 2 ^ 63

theorem section_spec (pre body rest tail : Bytes) (h : (pre ++ (le64 body.length ++ (body ++ rest))).length < 2 ^ 63) :
    section' ⟨pre ++ (le64 body.length ++ (body ++ rest)), tail⟩ pre.length =
      .ok (⟨body, rest ++ tail⟩, pre.length + 8 + body.length) := by
  have e1 := Slice.sub_append pre (le64 body.length) (body ++ rest) tail
  have e2 := Slice.sub_append (pre ++ le64 body.length) body rest tail
  simp only [List.append_assoc, List.length_append, le64_length, ← Nat.add_assoc] at e1 e2 h
  unfold section'
  rw [e1]
  simp only [Res.bind_ok, leNat_le64 _ (show body.length < 2 ^ 64 by omega)]
  rw [show body.length + (pre.length + 8) = pre.length + 8 + body.length by omega]
  rw [if_neg (by omega), if_neg (by simp [Slice.len]; omega), e2]
  rfl

theorem referenceToContent_length_ge (S : Sha) (mv : UInt8) (r : Reference) (h : r.WF S mv) :
    400 ≤ (referenceToContent r).length := by
  obtain ⟨hne, _⟩ := contentKeysNow_ok h.keysBuilt
  obtain ⟨hne2, _⟩ := commitsNow_ok h.commitsBuilt
  have h1 := flatMap_contentKey_length r.contentKeys.list h.keys
  have hp := List.length_pos_iff.mpr hne
  have h2 : 224 ≤ (r.commits.list.flatMap (fun x => le64 (commitToContent x).length ++ commitToContent x)).length := by
    match hl : r.commits.list, hne2, h.commits with
    | x :: xs, _, hL =>
      have := commitToContent_length_ge S mv x (hL x (by simp))
      simp; omega
  simp only [referenceToContent, contentKeysToContent, commitsToContent, List.length_append, le64_length]
  omega

theorem toReference_referenceToContent (S : Sha) (mv : UInt8) (r : Reference) (h : r.WF S mv) (tail : Bytes) :
    toReference S mv ⟨referenceToContent r, tail⟩ = .ok r := by
  have hge := referenceToContent_length_ge S mv r h
  have hsm := h.small
  unfold toReference
  rw [if_neg (by simp only [Slice.len, minReferenceSize, contentKeySize, commitMinSize]; omega)]
  have s1 := section_spec [] (contentKeysToContent r.contentKeys)
    (le64 (commitsToContent r.commits).length ++ commitsToContent r.commits) tail (by
      simpa [referenceToContent] using hsm)
  have s2 := section_spec (le64 (contentKeysToContent r.contentKeys).length ++ contentKeysToContent r.contentKeys)
    (commitsToContent r.commits) [] tail (by simpa [referenceToContent] using hsm)
  simp only [List.nil_append, List.length_nil, Nat.zero_add, List.append_assoc, List.append_nil, List.length_append,
    le64_length] at s1 s2
  simp only [referenceToContent, List.append_assoc]
  rw [s1]
  simp only [Res.bind_ok]
  have hkn : r.contentKeys.list.length < 2 ^ 63 := by
    have h1 := flatMap_contentKey_length r.contentKeys.list h.keys
    simp only [referenceToContent, contentKeysToContent, List.length_append] at hsm
    omega
  rw [toContentKeys_contentKeysToContent S r.contentKeys _ h.keysBuilt h.keys hkn]
  simp only [Res.bind_ok, s2, toCommits_commitsToContent S mv r.commits _ h.commitsBuilt h.commits, Res.pure_eq]

/-! ### Contents -/

/-- A content as its builder makes it. -/
def Content.WF (c : Content) : Prop := c.hash.length = 64 ∧ c.data ≠ [] ∧ c.kind < 2 ^ 64

instance (c : Content) : Decidable c.WF := inferInstanceAs (Decidable (_ ∧ _ ∧ _))

theorem toContentInstance_contentToContent (S : Sha) (c : Content) (h : c.WF) (tail : Bytes) :
    toContentInstance S ⟨contentToContent c, tail⟩ = .ok c := by
  obtain ⟨h1, h2, h3⟩ := h
  have hp := List.length_pos_iff.mpr h2
  unfold toContentInstance
  rw [if_neg (by simp [Slice.len, contentToContent, minContentSize, h1]; omega)]
  have e1 := Slice.sub_zero_append c.hash (le64 c.kind ++ c.data) tail
  have e2 := Slice.sub_append c.hash (le64 c.kind) c.data tail
  have e3 := Slice.from_append (c.hash ++ le64 c.kind) c.data tail
  simp only [List.append_assoc, List.length_append, le64_length, h1] at e1 e2 e3
  norm_num at e1 e2 e3
  unfold contentToContent
  simp only [List.append_assoc]
  rw [e1, e2, e3]
  simp [contentNow, leNat_le64 _ h3, Hash.fromBytes_of_len h1, h2]

theorem contentsLoop_eq (S : Sha) (c : Slice) :
    contentsLoop S c = if c.len ≤ 0 then .ok [] else (do
      let l ← c.sub 0 8
      let s ← c.sub 8 (8 + leNat l.vis)
      let x ← toContentInstance S s
      let remaining ← c.from' (8 + leNat l.vis)
      let rest ← contentsLoop S remaining
      pure (x :: rest)) := by
  rw [contentsLoop]
  split
  · rfl
  cases h1 : c.sub 0 8 with
  | err => rfl
  | panic => rfl
  | ok l =>
    simp only [Res.bind_ok]
    cases h2 : c.sub 8 (8 + leNat l.vis) with
    | err => rfl
    | panic => rfl
    | ok s =>
      simp only [Res.bind_ok]
      cases h3 : toContentInstance S s with
      | err => rfl
      | panic => rfl
      | ok x =>
        simp only [Res.bind_ok]
        split
        · rename_i r hr
          rw [hr]
          simp only [Res.bind_ok]
          cases contentsLoop S r <;> rfl
        · rename_i hr; rw [hr]; rfl
        · rename_i hr; rw [hr]; rfl

theorem contentsLoop_spec (S : Sha) (L : List Content) (tail : Bytes)
    (hL : ∀ c ∈ L, c.WF ∧ (contentToContent c).length < 2 ^ 63) :
    contentsLoop S ⟨contentsToContent L, tail⟩ = .ok L := by
  induction L with
  | nil => rw [contentsLoop_eq]; simp [contentsToContent, Slice.len]
  | cons x xs ih =>
    obtain ⟨hx, hxs⟩ := hL x (by simp)
    have ih' := ih (fun y hy => hL y (by simp [hy]))
    have e1 := Slice.sub_zero_append (le64 (contentToContent x).length) (contentToContent x ++ contentsToContent xs) tail
    have e2 := Slice.sub_append (le64 (contentToContent x).length) (contentToContent x) (contentsToContent xs) tail
    have e3 := Slice.from_append (le64 (contentToContent x).length ++ contentToContent x) (contentsToContent xs) tail
    simp only [List.append_assoc, List.length_append, le64_length] at e1 e2 e3
    have e0 : contentsToContent (x :: xs) = le64 (contentToContent x).length ++ (contentToContent x ++ contentsToContent xs) := by
      simp [contentsToContent]
    rw [e0, contentsLoop_eq, if_neg (by simp [Slice.len]), e1]
    simp only [Res.bind_ok, leNat_le64 _ (show (contentToContent x).length < 2 ^ 64 by omega), e2, e3,
      toContentInstance_contentToContent S x hx, ih', Res.pure_eq]

end Ref
end Rodkina
