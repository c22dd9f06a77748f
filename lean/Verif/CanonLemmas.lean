import Verif.CanonSpec
import Verif.CrashLemmas3
import Verif.HashTreeLemmas2
import Verif.ReferencesLemmas
import Verif.DataBuildersLemmas
import Verif.DecodeTail
/-!
# Decoding and encoding again
-/

namespace Rodkina

open CrashSpec CanonSpec DecodeSpec

namespace HashTree

theorem leafBytes_written {b : Bytes} (h : LeafBytes b) : ∃ l : Leaf, l.Sized ∧ leafToContent l = b := by
  induction h with
  | bottom head h => exact ⟨.base head, h, rfl⟩
  | inner head left right h _ _ _ ihl ihr =>
    obtain ⟨l, hl, rfl⟩ := ihl
    obtain ⟨r, hr, rfl⟩ := ihr
    exact ⟨.node head l r, ⟨h, hl, hr⟩, by simp [leafToContent]⟩

theorem treeBytes_written {b : Bytes} (h : TreeBytes b) : ∃ x : Tree, x.Sized ∧ toContent x = b := by
  obtain ⟨head, left, right, h64, _, hl, hr, rfl⟩ := h
  obtain ⟨l, hls, rfl⟩ := leafBytes_written hl
  obtain ⟨r, hrs, rfl⟩ := leafBytes_written hr
  exact ⟨⟨head, l, r⟩, ⟨h64, hls, hrs⟩, by simp [toContent, parentToContent]⟩

theorem tree_written (S : Sha) {b t : Bytes} {x : Tree} (hb : b.length < 2 ^ 64) (h : toHashTree S ⟨b, t⟩ = .ok x) :
    toContent x = b := by
  obtain ⟨y, hy, rfl⟩ := treeBytes_written ((tree_outcomes S b t).1.1 ⟨x, h⟩)
  rw [toHashTree_toContent S y hy hb t] at h
  injection h with h
  rw [h]

theorem listed_written : ∀ leaves : List Bytes, (∀ l ∈ leaves, LeafBytes l ∧ l.length < 2 ^ 64) →
    ∃ L : List Leaf, L.length = leaves.length ∧ (∀ x ∈ L, x.Sized ∧ (leafToContent x).length < 2 ^ 64) ∧
      L.flatMap (fun x => le64 (leafToContent x).length ++ leafToContent x) = listed leaves
  | [], _ => ⟨[], rfl, by simp, rfl⟩
  | l :: ls, h => by
    obtain ⟨L, h1, h2, h3⟩ := listed_written ls (fun x hx => h x (by simp [hx]))
    obtain ⟨hl, hlt⟩ := h l (by simp)
    obtain ⟨y, hy, rfl⟩ := leafBytes_written hl
    refine ⟨y :: L, by simp [h1], ?_, by simp [listed, h3]⟩
    intro x hx
    cases hx with
    | head => exact ⟨hy, hlt⟩
    | tail _ hx => exact h2 x hx

theorem leaves_length {L : List Leaf} (hL : L ≠ []) (h2 : ∀ x ∈ L, x.Sized ∧ (leafToContent x).length < 2 ^ 64) :
    80 ≤ (leavesToContent L).length := by
  cases L with
  | nil => exact absurd rfl hL
  | cons y ys =>
    have := leafToContent_length_ge (h2 y (by simp)).1
    simp [leavesToContent]
    omega

theorem contentToCompact_compactToContent (S : Sha) {head : Bytes} {L : List Leaf} (h64 : head.length = 64) (hL : L ≠ [])
    (hn : L.length < 2 ^ 63) (h2 : ∀ x ∈ L, x.Sized ∧ (leafToContent x).length < 2 ^ 64) (more : Bytes) :
    contentToCompact S ⟨compactToContent ⟨head, L⟩, more⟩ = .ok ⟨head, L⟩ := by
  have hl80 := leaves_length hL h2
  unfold contentToCompact compactToContent
  simp only
  rw [if_neg (by simp [minCompactSize, Slice.len]; omega)]
  have e1 := Slice.sub_zero_append head (leavesToContent L) more
  have e2 := Slice.from_append head (leavesToContent L) more
  rw [h64] at e1 e2
  rw [e1, e2]
  simp only [Res.bind_ok]
  rw [toLeaves_leavesToContent S L more hL hn h2]
  simp only [Res.bind_ok, Res.pure_eq]
  rw [Hash.fromBytes_of_len h64]

theorem compact_written (S : Sha) {b t : Bytes} {x : Compact} (h : contentToCompact S ⟨b, t⟩ = .ok x) :
    (∃ more, b ++ t = compactToContent x ++ more) ∧ (compactToContent x = b ↔ CompactWritten b) := by
  obtain ⟨head, rest, h64, rfl, leaves, more, h80, hne, hlt, hk, he⟩ := (contentToCompact_is S b t).1.1 ⟨x, h⟩
  obtain ⟨L, h1, h2, h3⟩ := listed_written leaves hk
  have hL : L ≠ [] := by
    rintro rfl
    exact hne (List.length_eq_zero_iff.1 h1.symm)
  have hx : compactToContent ⟨head, L⟩ = head ++ (le64 leaves.length ++ listed leaves) := by
    simp only [compactToContent, leavesToContent, h1, h3]
  have hc : (head ++ rest) ++ t = compactToContent ⟨head, L⟩ ++ more := by
    rw [hx]
    simp only [List.append_assoc, he]
  have hl80 := leaves_length hL h2
  have e : contentToCompact S ⟨head ++ rest, t⟩ = contentToCompact S ⟨compactToContent ⟨head, L⟩, more⟩ :=
    contentToCompact_buffer S (by simp [Slice.len]; omega) (by simp [compactToContent, Slice.len]; omega) hc
  have h' := h
  rw [e, contentToCompact_compactToContent S h64 hL (by omega) h2] at h
  injection h with h
  subst h
  refine ⟨⟨more, hc⟩, fun e => ⟨head, leaves, h64, hlt, hk, by rw [← hx, e]⟩, ?_⟩
  rintro ⟨head', leaves', h64', hlt', hk', e'⟩
  obtain ⟨rfl, e2⟩ := List.append_inj e' (by omega)
  obtain ⟨L', h1', h2', h3'⟩ := listed_written leaves' hk'
  have hx' : compactToContent ⟨head, L'⟩ = head ++ rest := by
    simp only [compactToContent, leavesToContent, h1', h3', e2]
  have hL' : L' ≠ [] := by
    rintro rfl
    have hz : leaves' = [] := List.length_eq_zero_iff.1 h1'.symm
    subst hz
    have := congrArg List.length e2
    simp [listed] at this
    omega
  rw [← hx', contentToCompact_compactToContent S h64 hL' (by omega) h2'] at h'
  injection h' with h'
  rw [← hx', h']

end HashTree

namespace Ref

theorem keyBytes_written {b : Bytes} (h : KeyBytes b) : ∃ k : ContentKey, k.WF ∧ contentKeyToContent k = b := by
  obtain ⟨hash, kind, start, commit, n, h1, h2, h3, h4, h5, h6, rfl⟩ := h
  have hk := leNat_lt kind
  have hs := leNat_lt start
  rw [h2] at hk
  rw [h3] at hs
  refine ⟨⟨hash, leNat kind, ⟨leNat start, n⟩, commit⟩, ⟨h1, by omega, ⟨by simp only; omega, h4, by simp only; omega⟩, h6⟩, ?_⟩
  simp only [contentKeyToContent, pointerToContent, le64_leNat kind h2, le64_leNat start h3, List.append_assoc]

theorem key_written (S : Sha) {b t : Bytes} {x : ContentKey} (h : toContentKey S ⟨b, t⟩ = .ok x) : contentKeyToContent x = b := by
  obtain ⟨k, hk, rfl⟩ := keyBytes_written ((toContentKey_is S b t).1.1 ⟨x, h⟩)
  rw [toContentKey_contentKeyToContent S k hk t] at h
  injection h with h
  rw [h]

theorem contentKeysLoop_buffer (S : Sha) {c d : Slice} (h : c.vis ++ c.tail = d.vis ++ d.tail) (n i : Nat) :
    contentKeysLoop S c n i = contentKeysLoop S d n i := by
  induction n generalizing i with
  | zero => rfl
  | succ n ih => simp only [contentKeysLoop, HashTree.sub_buffer h, ih]

theorem toContentKeys_buffer (S : Sha) {c d : Slice} (h : c.vis ++ c.tail = d.vis ++ d.tail) (hc : 160 ≤ c.len)
    (hd : 160 ≤ d.len) : toContentKeys S c = toContentKeys S d := by
  unfold toContentKeys
  rw [if_neg (by simp [contentKeySize]; omega), if_neg (by simp [contentKeySize]; omega)]
  simp only [HashTree.sub_buffer h, contentKeysLoop_buffer S h]

theorem keyList_written : ∀ keys : List Bytes, (∀ k ∈ keys, KeyBytes k) →
    ∃ L : List ContentKey, L.length = keys.length ∧ (∀ x ∈ L, x.WF) ∧ L.flatMap contentKeyToContent = keys.flatten
  | [], _ => ⟨[], rfl, by simp, rfl⟩
  | k :: ks, h => by
    obtain ⟨L, h1, h2, h3⟩ := keyList_written ks (fun x hx => h x (by simp [hx]))
    obtain ⟨y, hy, rfl⟩ := keyBytes_written (h k (by simp))
    refine ⟨y :: L, by simp [h1], ?_, by simp [h3]⟩
    intro x hx
    cases hx with
    | head => exact hy
    | tail _ hx => exact h2 x hx

theorem keys_written (S : Sha) {b t : Bytes} {x : ContentKeys} (h : toContentKeys S ⟨b, t⟩ = .ok x) :
    (∃ more, b ++ t = contentKeysToContent x ++ more) ∧ (∀ k ∈ x.list, k.WF) ∧ x.list.length < 2 ^ 63 := by
  obtain ⟨keys, more, h160, hne, hlt, hk, he⟩ := (toContentKeys_is S b t).1.1 ⟨x, h⟩
  obtain ⟨L, h1, h2, h3⟩ := keyList_written keys hk
  have hL : L ≠ [] := by
    rintro rfl
    exact hne (List.length_eq_zero_iff.1 h1.symm)
  have hnow : contentKeysNow L = .ok ⟨GoMap.ofList (fun k => Hash.toString k.hash) L, L⟩ := by
    unfold contentKeysNow
    rw [if_neg (by simpa using hL)]
  have hc : b ++ t = contentKeysToContent ⟨GoMap.ofList (fun k => Hash.toString k.hash) L, L⟩ ++ more := by
    simp only [contentKeysToContent, h1, h3, List.append_assoc, he]
  have e := toContentKeys_contentKeysToContent S _ L hnow h2 (by omega) more
  have h160' : 160 ≤ (contentKeysToContent ⟨GoMap.ofList (fun k => Hash.toString k.hash) L, L⟩).length := by
    cases L with
    | nil => exact absurd rfl hL
    | cons y ys =>
      have := contentKeyToContent_length y (h2 y (by simp))
      simp [contentKeysToContent]
      omega
  rw [toContentKeys_buffer S (c := ⟨b, t⟩)
    (d := ⟨contentKeysToContent ⟨GoMap.ofList (fun k => Hash.toString k.hash) L, L⟩, more⟩) hc h160 h160', e] at h
  injection h with h
  subst h
  exact ⟨⟨more, hc⟩, h2, by simp only; omega⟩

theorem content_written (S : Sha) {b t : Bytes} {x : Content} (h : toContentInstance S ⟨b, t⟩ = .ok x) : contentToContent x = b := by
  have h73 := (toContentInstance_is S b t).1.1 ⟨x, h⟩
  have e : b = contentToContent ⟨b.take 64, b.drop 72, leNat ((b.drop 64).take 8)⟩ := by
    simp only [contentToContent]
    rw [le64_leNat _ (by simp; omega), show b.drop 72 = (b.drop 64).drop 8 by rw [List.drop_drop], List.append_assoc,
      List.take_append_drop, List.take_append_drop]
  have hw : Content.WF ⟨b.take 64, b.drop 72, leNat ((b.drop 64).take 8)⟩ := by
    have := leNat_lt ((b.drop 64).take 8)
    rw [show ((b.drop 64).take 8).length = 8 by simp; omega] at this
    refine ⟨by simp; omega, fun h => ?_, by simp only; omega⟩
    have := congrArg List.length h
    simp at this
    omega
  have := toContentInstance_contentToContent S _ hw t
  rw [← e, h] at this
  injection this with this
  rw [this, ← e]

theorem contentsBytes_written {b : Bytes} (h : ContentsBytes b) (hb : b.length < 2 ^ 63) :
    ∃ L : List Content, (∀ c ∈ L, c.WF ∧ (contentToContent c).length < 2 ^ 63) ∧ contentsToContent L = b := by
  induction h with
  | nil => exact ⟨[], by simp, rfl⟩
  | cons c rest h73 hlt _ ih =>
    simp only [List.length_append, le64_length] at hb
    obtain ⟨L, h1, h2⟩ := ih (by omega)
    obtain ⟨x, hx⟩ := (toContentInstance_is ⟨fun _ => List.replicate 64 0, fun _ => by simp⟩ c []).1.2 h73
    have e := content_written _ hx
    have hw : x.WF := DataBuildSpec.toContentInstance_wf hx
    refine ⟨x :: L, ?_, by simp [contentsToContent, e, ← h2]⟩
    intro y hy
    cases hy with
    | head => exact ⟨hw, by rw [e]; omega⟩
    | tail _ hy => exact h1 y hy

theorem contents_written (S : Sha) {b t : Bytes} {x : List Content} (hb : b.length < 2 ^ 63)
    (h : toContentsInstance S ⟨b, t⟩ = .ok x) : contentsToContent x = b := by
  have hbytes := ((toContentsInstance_is S b t).1.1 ⟨x, h⟩)
  obtain ⟨L, h1, rfl⟩ := contentsBytes_written hbytes.2 hb
  unfold toContentsInstance at h
  rw [if_neg (show ¬ Slice.len ⟨contentsToContent L, t⟩ < minContentsSize by
    simp only [Slice.len, minContentsSize, minContentSize]; omega), contentsLoop_spec S L t h1] at h
  simp only [Res.bind_ok] at h
  split at h
  · cases h
  · simp only [Res.pure_eq] at h
    injection h with h
    rw [h]

/-! ## Commits -/

theorem natBE_head (n : Nat) : (natBE n).head? ≠ some 0 := by
  induction n using Nat.strongRecOn with
  | _ n ih =>
    unfold natBE
    split
    · simp
    · rename_i h0
      have h := ih (n / 256) (by omega)
      by_cases hd : n / 256 = 0
      · rw [hd]
        have : natBE 0 = [] := by unfold natBE; simp
        rw [this]
        simp only [List.nil_append, List.head?_cons]
        intro h
        injection h with h
        have := congrArg UInt8.toNat h
        simp at this
        omega
      · have hne : natBE (n / 256) ≠ [] := by
          unfold natBE
          simp [hd]
        cases e : natBE (n / 256) with
        | nil => exact absurd e hne
        | cons y ys =>
          rw [e] at h
          simpa using h

theorem bigBytes_bigOfBytes (b : Bytes) : bigBytes (bigOfBytes b) = b ↔ b.head? ≠ some 0 := by
  constructor
  · intro h
    rw [← h]
    exact natBE_head _
  · induction b using List.reverseRecOn with
    | nil =>
      intro _
      unfold bigBytes bigOfBytes natBE
      simp
    | append_singleton a x ih =>
      intro h
      have ha : a.head? ≠ some 0 := by
        cases a with
        | nil => simp
        | cons y ys => simpa using h
      have ih := ih ha
      rw [bigOfBytes_append]
      have hN : bigOfBytes a = ((bigOfBytes a).natAbs : Int) := by
        unfold bigOfBytes
        simp
      unfold bigBytes at ih ⊢
      rw [show (256 * bigOfBytes a + (x.toNat : Int)).natAbs = 256 * (bigOfBytes a).natAbs + x.toNat by omega]
      generalize (bigOfBytes a).natAbs = N at ih
      have hx := x.toNat_lt
      unfold natBE
      by_cases h0 : 256 * N + x.toNat = 0
      · have hN0 : N = 0 := by omega
        have hx0 : x.toNat = 0 := by omega
        subst hN0
        have : natBE 0 = [] := by unfold natBE; simp
        rw [this] at ih
        subst ih
        exfalso
        apply h
        simp only [List.nil_append, List.head?_cons]
        congr
        exact UInt8.toNat_inj.1 (by simpa using hx0)
      · rw [if_neg h0, show (256 * N + x.toNat) / 256 = N by omega, show (256 * N + x.toNat) % 256 = x.toNat by omega, ih]
        simp

theorem bigOfBytes_lt (b : Bytes) : (bigOfBytes b).natAbs < 256 ^ b.length := by
  induction b using List.reverseRecOn with
  | nil => simp [bigOfBytes]
  | append_singleton a x ih =>
    rw [bigOfBytes_append]
    have hN : bigOfBytes a = ((bigOfBytes a).natAbs : Int) := by
      unfold bigOfBytes
      simp
    have hx := x.toNat_lt
    simp only [List.length_append, List.length_singleton, Nat.pow_succ]
    omega

theorem readProof_inv {r t : Bytes} {pr : Option Int × Slice} (h : readProof ⟨r, t⟩ = .ok pr) :
    (pr.1 = none ∧ pr.2.vis = r ∧ r.head? ≠ some 0) ∨
      ∃ pb rest : Bytes, pb.length < 2 ^ 64 ∧ r = 0 :: (le64 pb.length ++ (pb ++ rest)) ∧ pr.1 = some (bigOfBytes pb) ∧ pr.2.vis = rest := by
  have hno := (readProof_is r t).1.1 ⟨pr, h⟩
  cases r with
  | nil =>
    unfold readProof at h
    rw [if_neg (by simp [Slice.len])] at h
    simp only [Res.pure_eq] at h
    injection h with h
    subst h
    exact .inl ⟨rfl, rfl, by simp⟩
  | cons m r =>
    by_cases hm : m = 0
    · subst hm
      have h8 : 8 ≤ r.length := by
        apply Nat.le_of_not_lt
        intro h8
        exact hno ⟨r, rfl, .inl h8⟩
      obtain ⟨hs, hn⟩ := split_length r h8
      generalize leNat (r.take 8) = n at hs hn
      generalize r.drop 8 = rest at hs
      subst hs
      have hfit : n ≤ rest.length := by
        apply Nat.le_of_not_lt
        intro hlt
        exact hno ⟨_, rfl, .inr ⟨n, rest, hn, rfl, hlt⟩⟩
      have hl : (rest.take n).length = n := by simp; omega
      have e := readProof_some (rest.take n) (rest.drop n) t (by omega)
      rw [hl, List.cons_append, List.append_assoc, List.take_append_drop, h] at e
      injection e with e
      subst e
      exact .inr ⟨rest.take n, rest.drop n, by omega, by rw [hl, List.take_append_drop], rfl, rfl⟩
    · unfold readProof at h
      rw [if_pos (by simp [Slice.len])] at h
      have e : Slice.sub ⟨m :: r, t⟩ 0 1 = .ok ⟨[m], r ++ t⟩ := by
        have := Slice.sub_zero_append [m] r t
        simpa using this
      rw [e] at h
      simp only [Res.bind_ok] at h
      rw [if_neg (show ¬ (List.head? (⟨[m], r ++ t⟩ : Slice).vis = some 0) by simpa using hm)] at h
      simp only [Res.pure_eq] at h
      injection h with h
      subst h
      exact .inl ⟨rfl, rfl, by simpa using hm⟩

theorem readParent_inv {S : Sha} {c : Slice} {p : Option Bytes} (h : readParent S c = .ok p) :
    (c.vis = [] ∧ p = none) ∨ ∃ m q, c.vis = m :: q ∧ p = some (Hash.fromBytes S q) := by
  unfold readParent at h
  obtain ⟨v, t⟩ := c
  cases v with
  | nil =>
    rw [if_neg (by simp [Slice.len])] at h
    simp only [Res.pure_eq] at h
    injection h with h
    exact .inl ⟨rfl, h.symm⟩
  | cons m q =>
    rw [if_pos (by simp [Slice.len])] at h
    have e := Slice.from_append [m] q t
    simp only [List.singleton_append, List.length_singleton] at e
    rw [e] at h
    simp only [Res.bind_ok, Res.pure_eq] at h
    injection h with h
    exact .inr ⟨m, q, rfl, h.symm⟩

theorem parentPart_written {S : Sha} {c : Slice} {p : Option Bytes} (h : readParent S c = .ok p) :
    parentPart p = c.vis ↔ ParentWritten c.vis := by
  rcases readParent_inv h with ⟨hv, rfl⟩ | ⟨m, q, hv, rfl⟩
  · rw [hv]
    exact ⟨fun _ => .inl rfl, fun _ => rfl⟩
  · rw [hv]
    unfold parentPart
    constructor
    · intro e
      injection e with e1 e2
      subst e1
      refine .inr ⟨q, ?_, rfl⟩
      rw [← e2]
      exact Hash.fromBytes_length S q
    · rintro (h | ⟨p, hp, h⟩)
      · cases h
      · injection h with h1 h2
        subst h1
        subst h2
        rw [Hash.fromBytes_of_len hp]

theorem toU64_ofU64 (n : Nat) (h : n < 2 ^ 64) : toU64 (ofU64 n) = n := by
  unfold toU64 ofU64
  split <;> omega

theorem commit_parts (S : Sha) (mv : UInt8) {time values rest t : Bytes} (h8 : time.length = 8) (hlt : values.length < 2 ^ 64) {x : Commit}
    (h : toCommit S mv ⟨time ++ (le64 values.length ++ (values ++ rest)), t⟩ = .ok x) :
    ∃ tree pr parent, HashTree.toHashTree S ⟨values, rest ++ t⟩ = .ok tree ∧ readProof ⟨rest, t⟩ = .ok pr ∧
      readParent S pr.2 = .ok parent ∧ x = commitNow S mv tree (ofU64 (leNat time)) parent pr.1 := by
  unfold toCommit at h
  split at h
  · cases h
  have e1 : Slice.sub ⟨time ++ (le64 values.length ++ (values ++ rest)), t⟩ 0 8 = .ok ⟨time, le64 values.length ++ (values ++ rest) ++ t⟩ := by
    have := Slice.sub_zero_append time (le64 values.length ++ (values ++ rest)) t
    rwa [h8] at this
  have e2 : Slice.sub ⟨time ++ (le64 values.length ++ (values ++ rest)), t⟩ 8 16 = .ok ⟨le64 values.length, values ++ rest ++ t⟩ := by
    rw [show 16 = 8 + 8 from rfl, Slice.sub_past h8, if_neg (by simp; omega)]
    simp
  have hpre : (time ++ le64 values.length).length = 16 := by simp [h8]
  have e3 : Slice.sub ⟨time ++ (le64 values.length ++ (values ++ rest)), t⟩ 16 (16 + values.length) = .ok ⟨values, rest ++ t⟩ := by
    rw [← List.append_assoc, Slice.sub_past hpre, if_neg (by simp; omega)]
    simp
  have e4 : Slice.from' ⟨time ++ (le64 values.length ++ (values ++ rest)), t⟩ (16 + values.length) = .ok ⟨rest, t⟩ := by
    have := Slice.from_append (time ++ (le64 values.length ++ values)) rest t
    simpa [h8, ← Nat.add_assoc] using this
  rw [e1, e2] at h
  simp only [Res.bind_ok, leNat_le64 _ hlt] at h
  rw [e3, e4] at h
  simp only [Res.bind_eq_ok, Res.bind_ok, Res.pure_eq] at h
  obtain ⟨tree, ht, pr, hpr, parent, hpa, h⟩ := h
  injection h with h
  exact ⟨tree, pr, parent, ht, hpr, hpa, h.symm⟩

theorem commit_written (S : Sha) (mv : UInt8) {b t : Bytes} {x : Commit}
    (h : toCommit S mv ⟨b, t⟩ = .ok x) : (commitToContent x = b ↔ CommitWritten b) ∧ (commitToContent x).length ≤ b.length + 64 := by
  obtain ⟨time, values, rest, h8, hlt, hv, hp, rfl⟩ := (toCommit_is S mv b t).1.1 ⟨x, h⟩
  have hW : CommitWritten (time ++ (le64 values.length ++ (values ++ rest))) ↔ EndWritten rest := by
    constructor
    · rintro ⟨time', values', rest', h8', hlt', hE, he⟩
      obtain ⟨_, e2⟩ := List.append_inj he (by omega)
      obtain ⟨e3, e4⟩ := List.append_inj e2 (by simp)
      obtain ⟨_, rfl⟩ := List.append_inj e4 (le64_inj hlt hlt' e3)
      exact hE
    · exact fun hE => ⟨_, _, _, h8, hlt, hE, rfl⟩
  rw [hW]
  obtain ⟨tree, pr, parent, ht, hpr, hpa, rfl⟩ := commit_parts S mv h8 hlt h
  have htw := HashTree.tree_written S hlt ht
  have htm : le64 (toU64 (ofU64 (leNat time))) = time := by
    have := leNat_lt time
    rw [h8] at this
    rw [toU64_ofU64 _ (by omega), le64_leNat time h8]
  have hc : commitToContent (commitNow S mv tree (ofU64 (leNat time)) parent pr.1) =
      time ++ (le64 values.length ++ (values ++
        ((match pr.1 with | some p => 0 :: (le64 (bigBytes p).length ++ bigBytes p) | none => []) ++ parentPart parent))) := by
    unfold commitToContent commitNow
    simp only [htm, htw]
    cases pr.1 <;> simp [proofPart]
  rw [hc, List.append_cancel_left_eq, List.append_cancel_left_eq, List.append_cancel_left_eq]
  have hpp := parentPart_written hpa
  have hpl : (parentPart parent).length ≤ pr.2.vis.length + 64 := by
    rcases readParent_inv hpa with ⟨hv, rfl⟩ | ⟨m, q, hv, rfl⟩
    · simp [parentPart]
    · have := Hash.fromBytes_length S q
      rw [hv]
      simp only [parentPart, List.length_cons, this]
      omega
  rcases readProof_inv hpr with ⟨h1, h2, h3⟩ | ⟨pb, q, hpb, rfl, h1, h2⟩
  · rw [h2] at hpp
    rw [h1]
    simp only [List.nil_append]
    refine ⟨?_, by rw [h2] at hpl; simp only [List.length_append]; omega⟩
    rw [hpp]
    constructor
    · exact .inl
    · rintro (h | ⟨proof, parent, _, _, _, he⟩)
      · exact h
      · rw [he] at h3
        simp at h3
  · rw [h2] at hpp
    rw [h1]
    simp only
    have hfold : (0 :: (le64 (bigBytes (bigOfBytes pb)).length ++ bigBytes (bigOfBytes pb)) ++ parentPart parent =
        0 :: (le64 pb.length ++ (pb ++ q))) ↔ bigBytes (bigOfBytes pb) = pb ∧ parentPart parent = q := by
      constructor
      · intro e
        rw [List.cons_append, List.append_assoc] at e
        injection e with _ e
        obtain ⟨e1, e2⟩ := List.append_inj e (by simp)
        have hle : (bigBytes (bigOfBytes pb)).length ≤ pb.length := by
          exact natBE_length_le _ _ (bigOfBytes_lt pb)
        obtain ⟨e3, e4⟩ := List.append_inj e2 (le64_inj (by omega) hpb e1)
        exact ⟨e3, e4⟩
      · rintro ⟨e1, e2⟩
        rw [e1, e2, List.cons_append, List.append_assoc]
    refine ⟨?_, ?_⟩
    swap
    · have hle := natBE_length_le _ _ (bigOfBytes_lt pb)
      rw [h2] at hpl
      simp only [List.length_append, List.length_cons, le64_length, bigBytes]
      omega
    rw [hfold, bigBytes_bigOfBytes, hpp]
    constructor
    · rintro ⟨hz, hw⟩
      exact .inr ⟨pb, q, hz, hpb, hw, rfl⟩
    · rintro (h | ⟨proof, parent', hz, hl, hw, he⟩)
      · rcases h with h | ⟨p, _, h⟩ <;> simp at h
      · injection he with _ he
        obtain ⟨e1, e2⟩ := List.append_inj he (by simp)
        obtain ⟨rfl, rfl⟩ := List.append_inj e2 (le64_inj hpb hl e1)
        exact ⟨hz, hw⟩

theorem commitsLoop_cons (S : Sha) (mv : UInt8) {c rest t : Bytes} (hc : c.length < 2 ^ 64) {x : List Commit}
    (h : commitsLoop S mv ⟨le64 c.length ++ (c ++ rest), t⟩ 0 = .ok x) :
    ∃ y ys, x = y :: ys ∧ toCommit S mv ⟨c, rest ++ t⟩ = .ok y ∧ commitsLoop S mv ⟨rest, t⟩ 0 = .ok ys := by
  rw [commitsLoop, if_neg (by omega), dif_neg (by simp [Slice.len])] at h
  have e1 := Slice.sub_field c.length (c ++ rest) t
  have e2 : Slice.sub ⟨le64 c.length ++ (c ++ rest), t⟩ 8 (8 + c.length) = .ok ⟨c, rest ++ t⟩ := by
    rw [Slice.sub_past (le64_length _), if_neg (by simp; omega)]
    simp
  simp only [Nat.zero_add] at h
  rw [e1] at h
  simp only [Res.bind_ok, leNat_le64 _ hc] at h
  rw [e2] at h
  simp only [Res.bind_ok] at h
  have e3 : commitsLoop S mv ⟨le64 c.length ++ (c ++ rest), t⟩ (8 + c.length) = commitsLoop S mv ⟨rest, t⟩ 0 := by
    have := commitsLoop_shift S mv (le64 c.length ++ c) rest t _ 0 (Nat.le_refl _)
    simpa [List.append_assoc] using this
  rw [e3] at h
  simp only [Res.bind_eq_ok, Res.pure_eq] at h
  obtain ⟨y, hy, ys, hys, h⟩ := h
  injection h with h
  exact ⟨y, ys, h.symm, hy, hys⟩

theorem commitsLoop_written (S : Sha) (mv : UInt8) (t : Bytes) {b : Bytes} (hB : CommitsBytes b) (hb : b.length < 2 ^ 63)
    {x : List Commit} (h : commitsLoop S mv ⟨b, t⟩ 0 = .ok x) :
    (x.flatMap (fun x => le64 (commitToContent x).length ++ commitToContent x) = b ↔ CommitsWritten b) := by
  induction hB generalizing x with
  | nil =>
    rw [commitsLoop, if_neg (by omega), dif_pos (show Slice.len ⟨[], t⟩ = 0 from rfl)] at h
    injection h with h
    subst h
    exact ⟨fun _ => .nil, fun _ => rfl⟩
  | cons c rest hc hcb _ ih =>
    simp only [List.length_append, le64_length] at hb
    obtain ⟨y, ys, rfl, hy, hys⟩ := commitsLoop_cons S mv hc h
    obtain ⟨hw, hwl⟩ := commit_written S mv hy
    have ih := ih (by omega) hys
    rw [List.flatMap_cons, List.append_assoc]
    constructor
    · intro e
      obtain ⟨e1, e2⟩ := List.append_inj e (by simp)
      obtain ⟨e3, e4⟩ := List.append_inj e2 (le64_inj (by omega) hc e1)
      exact .cons _ _ hc (hw.1 e3) (ih.1 e4)
    · intro hW
      have key : ∀ b', CommitsWritten b' → le64 c.length ++ (c ++ rest) = b' → CommitWritten c ∧ CommitsWritten rest := by
        intro b' h e
        cases h with
        | nil =>
          have := congrArg List.length e
          simp at this
        | cons c' rest' hc' h1 h2 =>
          obtain ⟨e1, e2⟩ := List.append_inj e (by simp)
          obtain ⟨rfl, rfl⟩ := List.append_inj e2 (le64_inj hc hc' e1)
          exact ⟨h1, h2⟩
      obtain ⟨h1, h2⟩ := key _ hW rfl
      rw [hw.2 h1, ih.2 h2]

theorem commits_written (S : Sha) (mv : UInt8) {b t : Bytes} (hb : b.length < 2 ^ 63) {x : Commits} (h : toCommits S mv ⟨b, t⟩ = .ok x) :
    commitsToContent x = b ↔ CommitsWritten b := by
  have hB := ((toCommits_is S mv b t).1.1 ⟨x, h⟩).2
  unfold toCommits at h
  split at h
  · cases h
  simp only [Res.bind_eq_ok] at h
  obtain ⟨l, hl, h⟩ := h
  unfold commitsNow at h
  split at h
  · cases h
  injection h with h
  subst h
  exact commitsLoop_written S mv t hB hb hl

theorem keys_length {x : ContentKeys} (h : ∀ k ∈ x.list, k.WF) : (contentKeysToContent x).length = 8 + 152 * x.list.length := by
  unfold contentKeysToContent
  rw [List.length_append, le64_length]
  congr 1
  obtain ⟨_, l⟩ := x
  simp only at h ⊢
  induction l with
  | nil => rfl
  | cons y ys ih =>
    rw [List.flatMap_cons, List.length_append, contentKeyToContent_length y (h y (by simp)), ih (fun k hk => h k (by simp [hk])),
      List.length_cons]
    omega

/-- When content keys are written back as they were. -/
theorem keys_written_iff (S : Sha) {b t : Bytes} {x : ContentKeys} (h : toContentKeys S ⟨b, t⟩ = .ok x) :
    (contentKeysToContent x = b ↔ KeysWritten b) ∧ (contentKeysToContent x).length ≤ b.length + t.length := by
  obtain ⟨⟨more, hm⟩, hwf, hn⟩ := keys_written S h
  refine ⟨?_, by have := congrArg List.length hm; simp at this; omega⟩
  have hlen := keys_length hwf
  constructor
  · intro e
    refine ⟨x.list.length, x.list.flatMap contentKeyToContent, hn, ?_, e.symm⟩
    rw [contentKeysToContent, List.length_append, le64_length] at hlen
    omega
  · rintro ⟨n, keys, hn', hk, rfl⟩
    have hm' := hm
    rw [contentKeysToContent, List.append_assoc, List.append_assoc] at hm
    obtain ⟨e1, e2⟩ := List.append_inj hm (by simp)
    have := le64_inj (by omega) (by omega) e1
    subst this
    rw [contentKeysToContent, List.length_append, le64_length] at hlen
    obtain ⟨e3, _⟩ := List.append_inj e2 (by omega)
    rw [contentKeysToContent, e3]

theorem toReference_parts (S : Sha) (mv : UInt8) {keys commits more t : Bytes} (hs : 16 + keys.length + commits.length < 2 ^ 63) {x : Reference}
    (h : toReference S mv ⟨le64 keys.length ++ (keys ++ (le64 commits.length ++ (commits ++ more))), t⟩ = .ok x) :
    toContentKeys S ⟨keys, le64 commits.length ++ (commits ++ (more ++ t))⟩ = .ok x.contentKeys ∧
      toCommits S mv ⟨commits, more ++ t⟩ = .ok x.commits := by
  unfold toReference at h
  split at h
  · cases h
  rw [section_is _ 0 keys.length (by omega) _ (Slice.sub_field _ _ t) rfl, Nat.zero_add, if_neg (by omega),
    if_neg (by simp [Slice.len]; omega), Nat.add_comm keys.length 8, Slice.sub_past (le64_length _), if_neg (by simp; omega)] at h
  simp only [Res.bind_ok, Res.pure_eq] at h
  have e1 : (le64 keys.length ++ (keys ++ (le64 commits.length ++ (commits ++ more)))) =
      (le64 keys.length ++ keys) ++ (le64 commits.length ++ (commits ++ more)) := by simp
  have hp : (le64 keys.length ++ keys).length = 8 + keys.length := by simp
  have e2 := Slice.sub_past hp 8 (le64 commits.length ++ (commits ++ more)) t
  rw [if_neg (by simp; omega)] at e2
  have ht : ((le64 commits.length ++ (commits ++ more)) ++ t).take 8 = le64 commits.length := by
    rw [List.append_assoc, List.take_left' (by simp)]
  have hp3 : (le64 keys.length ++ keys ++ le64 commits.length).length = 8 + keys.length + 8 := by simp; omega
  have e3 := Slice.sub_past hp3 commits.length (commits ++ more) t
  rw [if_neg (by simp; omega)] at e3
  have hsec : section' ⟨le64 keys.length ++ (keys ++ (le64 commits.length ++ (commits ++ more))), t⟩ (8 + keys.length) =
      .ok (⟨commits, more ++ t⟩, commits.length + (8 + keys.length + 8)) := by
    rw [e1, section_is _ (8 + keys.length) commits.length (by omega) _ e2 ht, if_neg (by omega),
      if_neg (by simp [Slice.len]; omega), ← List.append_assoc, Nat.add_comm commits.length, e3]
    simp
  rw [hsec] at h
  simp only [Res.bind_eq_ok, Res.bind_ok] at h
  obtain ⟨k, hk, c, hc, h⟩ := h
  injection h with h
  subst h
  refine ⟨?_, hc⟩
  simpa using hk

theorem reference_written (S : Sha) (mv : UInt8) {b t : Bytes} (hb : b.length < 2 ^ 63) {x : Reference}
    (h : toReference S mv ⟨b, t⟩ = .ok x) : referenceToContent x = b ↔ ReferenceWritten b := by
  obtain ⟨keys, commits, more, hs, _, _, _, rfl⟩ := (toReference_is S mv b t).1.1 ⟨x, h⟩
  obtain ⟨hk, hc⟩ := toReference_parts S mv hs h
  have hkw := (keys_written_iff S hk).1
  have hcw := commits_written S mv (by omega) hc
  have hr : referenceToContent x = le64 (contentKeysToContent x.contentKeys).length ++ (contentKeysToContent x.contentKeys ++
      (le64 (commitsToContent x.commits).length ++ commitsToContent x.commits)) := by
    simp [referenceToContent]
  constructor
  · intro e
    rw [hr] at e
    have hl := congrArg List.length e
    simp only [List.length_append, le64_length] at hl hb
    obtain ⟨e1, e2⟩ := List.append_inj e (by simp)
    obtain ⟨e3, e4⟩ := List.append_inj e2 (le64_inj (by omega) (by omega) e1)
    obtain ⟨e5, e6⟩ := List.append_inj e4 (by simp)
    have e7 := le64_inj (by omega) (by omega) e5
    have hm : more = [] := by
      have := congrArg List.length e6
      simp at this
      exact List.length_eq_zero_iff.1 (by omega)
    subst hm
    rw [List.append_nil] at e6 ⊢
    exact ⟨keys, commits, by omega, by omega, hkw.1 e3, hcw.1 e6, rfl⟩
  · rintro ⟨keys', commits', h1, h2, h3, h4, e⟩
    obtain ⟨e1, e2⟩ := List.append_inj e (by simp)
    obtain ⟨rfl, e4⟩ := List.append_inj e2 (le64_inj (by omega) (by omega) e1)
    obtain ⟨e5, e6⟩ := List.append_inj e4 (by simp)
    have e7 := le64_inj (by omega) (by omega) e5
    have hm : more = [] := by
      have := congrArg List.length e6
      simp at this
      exact List.length_eq_zero_iff.1 (by omega)
    subst hm
    rw [List.append_nil] at e6
    subst e6
    rw [hr, hkw.2 h3, hcw.2 h4, List.append_nil]

/-- Which byte other than 0 marks the parent makes no difference. -/
theorem commit_mark (S : Sha) (mv : UInt8) {time values q t : Bytes} {m m' : UInt8} (h8 : time.length = 8) (hlt : values.length < 2 ^ 64)
    (hm : m ≠ 0) (hm' : m' ≠ 0) {x y : Commit}
    (hx : toCommit S mv ⟨time ++ (le64 values.length ++ (values ++ m :: q)), t⟩ = .ok x)
    (hy : toCommit S mv ⟨time ++ (le64 values.length ++ (values ++ m' :: q)), t⟩ = .ok y) : x = y := by
  obtain ⟨tree, pr, parent, ht, hpr, hpa, rfl⟩ := commit_parts S mv h8 hlt hx
  obtain ⟨tree', pr', parent', ht', hpr', hpa', rfl⟩ := commit_parts S mv h8 hlt hy
  have e := HashTree.tree_same S (c := ⟨values, m :: q ++ t⟩) (d := ⟨values, m' :: q ++ t⟩) rfl ht
  rw [ht'] at e
  injection e with e
  subst e
  have key : ∀ (m : UInt8) (pr : Option Int × Slice) (parent : Option Bytes), m ≠ 0 → readProof ⟨m :: q, t⟩ = .ok pr → readParent S pr.2 = .ok parent →
      pr.1 = none ∧ parent = some (Hash.fromBytes S q) := by
    intro m pr parent hm hpr hpa
    rcases readProof_inv hpr with ⟨h1, h2, _⟩ | ⟨_, _, _, he, _⟩
    · refine ⟨h1, ?_⟩
      rcases readParent_inv hpa with ⟨hv, _⟩ | ⟨_, _, hv, hp⟩
      · rw [h2] at hv
        cases hv
      · rw [h2] at hv
        injection hv with _ hv
        rw [hp, hv]
    · injection he with he
      exact absurd he hm
  obtain ⟨a1, a2⟩ := key m pr parent hm hpr hpa
  obtain ⟨b1, b2⟩ := key m' pr' parent' hm' hpr' hpa'
  rw [a1, a2, b1, b2]

end Ref
end Rodkina
