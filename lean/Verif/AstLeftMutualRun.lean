import Verif.AstLeftMutual

/-!
# Runs of two rules that refer to each other at the left
-/

namespace Rodkina.Ast

open M

/-- What is assumed of the parts of the two rules. -/
structure MutOK (sk : Bytes → Bytes) (ctx : Ctx) (nA nB : String) (t u : List Container) (baseA baseB : List GLine) (K N : Nat) : Prop where
  rev : ctx.reverse = false
  peg : ∀ n, N ≤ n → PegRec n K ctx sk
  skip : ∀ n, N ≤ n → SkipIs (token n) ctx.channels sk
  le : K ≤ N
  apart : nA ≠ nB
  linesA : PegLines [nA, nB] baseA
  linesB : PegLines [nB, nA] baseB
  ne : baseA ≠ []
  depthA : ∀ g ∈ baseA, lineD g ≤ K
  depthB : ∀ g ∈ baseB, lineD g ≤ K
  ct : PegConts [nA, nB] t
  cu : PegConts [nA, nB] u
  dt : containersD t ≤ K
  du : containersD u ≤ K
  namesT : sameNames (.element 1 (some 1) (.token (lowerTok nA nB u baseB)) :: t)
  namesU : sameNames (selfRef nA :: u)

section
variable {ctx : Ctx} {sk : Bytes → Bytes} {nA nB : String} {t u : List Container} {baseA baseB : List GLine} {K N : Nat}
variable (h : MutOK sk ctx nA nB t u baseA baseB K N)
include h

/-- The base of the upper rule, wherever its entry is. -/
theorem mut_baseA {n : Nat} (hn : N ≤ n) (prev cur : Bytes) {s s1 : Stk} {lines : List (Nat × Bytes)} (hs1 : KeysIn [nB] s1)
    (hl : ∀ p ∈ lines, p.1 < 1)
    (hs : (s.get nA = none ∧ lines = [] ∨ s.get nA = some ⟨upperTok nA nB t u baseA baseB, lines⟩) ∧ ∀ e, s.put nA e = (nA, e) :: s1) :
    LinesEnd (upperTok nA nB t u baseA baseB) (blockLoop (token n) (upperTok nA nB t u baseA baseB) ctx prev cur 1 baseA [] s) s1 cur
      (rawBase sk nA 1 baseA cur) := by
  have hk : (upperTok nA nB t u baseA baseB).name ∉ [nB] := by
    simp only [List.mem_singleton]
    exact h.apart
  have key := linesEnd_of hs1 hk (run_blockLoop (path := [nB]) (h.peg n hn) (h.skip n hn) h.rev (Nat.le_trans h.le hn) hs1
    (tok := upperTok nA nB t u baseA baseB) hk prev cur baseA 1 (fun g hg => mem_pegLines h.linesA hg) h.depthA [] lines hl)
  have hnot : lines.lookup 1 = none := by
    cases hx : lines.lookup 1 with
    | none => rfl
    | some d =>
      exfalso
      have : ∀ (l : List (Nat × Bytes)), (∀ p ∈ l, p.1 < 1) → l.lookup 1 = none := by
        intro l
        induction l with
        | nil => intro _; rfl
        | cons a l ih =>
          intro hh
          obtain ⟨a1, a2⟩ := a
          have h0 := hh (a1, a2) (by simp)
          simp only at h0
          have : (1 == a1) = false := by simp; omega
          simp only [List.lookup, this]
          exact ih (fun p hp => hh p (List.mem_cons_of_mem _ hp))
      rw [this lines hl] at hx
      exact absurd hx (by simp)
  have hdelS1 : Stk.del s1 nA = s1 := del_eq_self hs1 (by simp only [List.mem_singleton]; exact h.apart)
  have heq : blockLoop (token n) (upperTok nA nB t u baseA baseB) ctx prev cur 1 baseA [] s
      = blockLoop (token n) (upperTok nA nB t u baseA baseB) ctx prev cur 1 baseA []
        ((nA, ⟨upperTok nA nB t u baseA baseB, lines⟩) :: s1) := by
    obtain ⟨g, gs, hg⟩ := List.exists_cons_of_ne_nil h.ne
    rw [hg]
    rw [← hg]
    have hnm : (upperTok nA nB t u baseA baseB).name = nA := rfl
    have hput : ∀ e, Stk.put ((nA, ⟨upperTok nA nB t u baseA baseB, lines⟩) :: s1) nA e = (nA, e) :: s1 := by
      intro e
      unfold Stk.put
      unfold Stk.del at hdelS1 ⊢
      simp [hdelS1]
    have hget : Stk.get ((nA, ⟨upperTok nA nB t u baseA baseB, lines⟩) :: s1) nA = some ⟨upperTok nA nB t u baseA baseB, lines⟩ := by
      simp [Stk.get]
    have htA : (alreadyTried (upperTok nA nB t u baseA baseB) 1 cur) s = (.ok false, s) := by
      unfold alreadyTried
      rw [hnm]
      rcases hs.1 with ⟨h0, _⟩ | h0
      · rw [h0]; rfl
      · rw [h0]; simp [hnot]
    have htB : (alreadyTried (upperTok nA nB t u baseA baseB) 1 cur) ((nA, ⟨upperTok nA nB t u baseA baseB, lines⟩) :: s1)
        = (.ok false, (nA, ⟨upperTok nA nB t u baseA baseB, lines⟩) :: s1) := by
      unfold alreadyTried
      rw [hnm, hget]
      simp [hnot]
    have hrA : (recordLine (upperTok nA nB t u baseA baseB) 1 cur) s
        = (.ok (), (nA, ⟨upperTok nA nB t u baseA baseB, (1, cur) :: lines⟩) :: s1) := by
      unfold recordLine
      rw [hnm]
      rcases hs.1 with ⟨h0, h00⟩ | h0
      · rw [h0]; simp [hs.2, h00]
      · rw [h0]; simp [hs.2]
    have hrB : (recordLine (upperTok nA nB t u baseA baseB) 1 cur) ((nA, ⟨upperTok nA nB t u baseA baseB, lines⟩) :: s1)
        = (.ok (), (nA, ⟨upperTok nA nB t u baseA baseB, (1, cur) :: lines⟩) :: s1) := by
      unfold recordLine
      rw [hnm, hget]
      simp [hput]
    generalize upperTok nA nB t u baseA baseB = A at *
    rw [hg, blockLoop]
    simp only [bind_apply, htA, htB]
    simp only [Bool.false_eq_true, if_false, bind_apply, hrA, hrB]
  rw [heq]
  exact key

/-- The upper rule called from the lower one: its base. -/
theorem mut_inner {n : Nat} (hn : N ≤ n) (prev cur : Bytes) (e : Entry) :
    Found (token (n + 1) (upperTok nA nB t u baseA baseB) ctx prev cur
      [(nB, e), (nA, ⟨upperTok nA nB t u baseA baseB, [(0, cur)]⟩)]) [(nB, e)] (pegBase sk nA 1 baseA cur) := by
  have hab : (nA == nB) = false := by simpa using h.apart
  have hba : (nB == nA) = false := by simpa using h.apart.symm
  rw [← rawBase_map]
  have hget : Stk.get [(nB, e), (nA, ⟨upperTok nA nB t u baseA baseB, [(0, cur)]⟩)] nA = some ⟨upperTok nA nB t u baseA baseB, [(0, cur)]⟩ := by
    simp [Stk.get, List.lookup, hab]
  refine close_end (h.skip n hn) (s1 := [(nB, e), (nA, ⟨upperTok nA nB t u baseA baseB, [(0, cur)]⟩)]) ?_ ?_
  · unfold enter
    rw [show (upperTok nA nB t u baseA baseB).name = nA from rfl, hget]
  · have hskip : blockLoop (token n) (upperTok nA nB t u baseA baseB) ctx prev cur 0 (upperTok nA nB t u baseA baseB).lines []
        [(nB, e), (nA, ⟨upperTok nA nB t u baseA baseB, [(0, cur)]⟩)]
        = blockLoop (token n) (upperTok nA nB t u baseA baseB) ctx prev cur 1 baseA []
        [(nB, e), (nA, ⟨upperTok nA nB t u baseA baseB, [(0, cur)]⟩)] := by
      change blockLoop (token n) (upperTok nA nB t u baseA baseB) ctx prev cur 0
        (.mk (.element 1 (some 1) (.token (lowerTok nA nB u baseB)) :: t) :: baseA) [] _ = _
      rw [blockLoop]
      simp only [bind_apply, alreadyTried, show (upperTok nA nB t u baseA baseB).name = nA from rfl, hget]
      simp
    rw [hskip]
    refine mut_baseA h hn prev cur (lines := [(0, cur)]) ?_ (by simp) ⟨.inr hget, ?_⟩
    · intro a b hab'
      simp at hab'
      simp [hab'.1]
    · intro e'
      simp [Stk.put, Stk.del, h.apart.symm]

/-- The lower rule, called from the first alternative of the upper one. -/
theorem mut_lower {n : Nat} (hn : N ≤ n) (prev cur : Bytes) (hne : cur ≠ []) :
    Found (token (n + 2) (lowerTok nA nB u baseB) ctx prev cur [(nA, ⟨upperTok nA nB t u baseA baseB, [(0, cur)]⟩)]) []
      (lowerRead sk nA nB u baseA baseB cur) := by
  have hn1 : N ≤ n + 1 := by omega
  have hab : (nA == nB) = false := by simpa using h.apart
  have hba : (nB == nA) = false := by simpa using h.apart.symm
  have hent : enter (lowerTok nA nB u baseB) [(nA, ⟨upperTok nA nB t u baseA baseB, [(0, cur)]⟩)]
      = (.ok (), [(nB, ⟨lowerTok nA nB u baseB, []⟩), (nA, ⟨upperTok nA nB t u baseA baseB, [(0, cur)]⟩)]) := by
    have := enter_run (path := [nA]) (s := [(nA, ⟨upperTok nA nB t u baseA baseB, [(0, cur)]⟩)]) (tok := lowerTok nA nB u baseB)
      (by intro a b hx; simp at hx; simp [hx.1]) (by simp only [List.mem_singleton]; exact h.apart.symm)
    exact this
  have hmap : ((elemRaw sk nB 0 nA u (pegBase sk nA 1 baseA cur)).or (rawBase sk nB 1 baseB cur)).map (fun x => (x.1, sk x.2))
      = lowerRead sk nA nB u baseA baseB cur := by
    unfold lowerRead
    rw [← elemRaw_map, ← rawBase_map (name := nB)]
    cases elemRaw sk nB 0 nA u (pegBase sk nA 1 baseA cur) <;> rfl
  rw [← hmap]
  refine close_end (h.skip _ hn1) hent ?_
  have hin := mut_inner h hn prev cur ⟨lowerTok nA nB u baseB, [(0, cur)]⟩
  have hel := run_called (m := n + 1) (c := .recursive nA) (tok := upperTok nA nB t u baseA baseB) hne
    (s := [(nB, ⟨lowerTok nA nB u baseB, [(0, cur)]⟩), (nA, ⟨upperTok nA nB t u baseA baseB, [(0, cur)]⟩)])
    (by
      unfold elementContent
      simp [bind_apply, recursiveToken, Stk.get, List.lookup, hab]) hin
  have hl := run_elemLine (h.peg _ hn1) (h.skip _ hn1) h.rev (Nat.le_trans h.le hn1) h.cu h.du
    (by intro a b hx; simp at hx; simp [hx.1]) hne hel 0
  refine block_first (m := n + 1) (c := .recursive nA) (tail := u) (tok := lowerTok nA nB u baseB) (gs := baseB) h.rev h.namesU ?_ ?_ hl ?_ ?_
  · simp [Stk.get, lowerTok, Token.name]
  · simp [Stk.put, Stk.del, lowerTok, Token.name, h.apart]
  · simp [Stk.del, lowerTok, Token.name]
  · exact linesEnd_of (keysIn_nil [nA]) (tok := lowerTok nA nB u baseB) (by simp only [List.mem_singleton]; exact h.apart.symm)
      (run_blockLoop (path := [nA]) (h.peg _ hn1) (h.skip _ hn1) h.rev (Nat.le_trans h.le hn1) (keysIn_nil [nA])
        (tok := lowerTok nA nB u baseB) (by simp only [List.mem_singleton]; exact h.apart.symm) prev cur baseB 1
        (fun g hg => mem_pegLines h.linesB hg) h.depthB [] [(0, cur)] (by simp))

/-- The upper rule. -/
theorem mut_upper {n : Nat} (hn : N ≤ n) (prev cur : Bytes) :
    Found (token (n + 3) (upperTok nA nB t u baseA baseB) ctx prev cur []) [] (upperRead sk nA nB t u baseA baseB cur) := by
  have hn2 : N ≤ n + 2 := by omega
  have hent : enter (upperTok nA nB t u baseA baseB) [] = (.ok (), [(nA, ⟨upperTok nA nB t u baseA baseB, []⟩)]) := rfl
  by_cases hne : cur = []
  · subst hne
    have hz : upperRead sk nA nB t u baseA baseB [] = (rawBase sk nA 1 baseA []).map (fun x => (x.1, sk x.2)) := by
      simp [upperRead, lowerRead, pegBase, rawBase, pegLines_nil, elemTail]
    rw [hz]
    refine close_end (h.skip _ hn2) hent ?_
    have hl : line (token (n + 2)) 0 (.mk (.element 1 (some 1) (.token (lowerTok nA nB u baseB)) :: t)) ctx prev []
        [(nA, ⟨upperTok nA nB t u baseA baseB, [(0, [])]⟩)] = (.err, [(nA, ⟨upperTok nA nB t u baseA baseB, [(0, [])]⟩)]) := rfl
    have hstep : blockLoop (token (n + 2)) (upperTok nA nB t u baseA baseB) ctx prev [] 0 (upperTok nA nB t u baseA baseB).lines []
        [(nA, ⟨upperTok nA nB t u baseA baseB, []⟩)]
        = blockLoop (token (n + 2)) (upperTok nA nB t u baseA baseB) ctx prev [] 1 baseA []
          [(nA, ⟨upperTok nA nB t u baseA baseB, [(0, [])]⟩)] := by
      have f0 : Free (upperTok nA nB t u baseA baseB) 0 [] [(nA, ⟨upperTok nA nB t u baseA baseB, []⟩)] [] := .inr ⟨rfl, by simp⟩
      rw [show (upperTok nA nB t u baseA baseB).lines = .mk (.element 1 (some 1) (.token (lowerTok nA nB u baseB)) :: t) :: baseA from rfl,
        block_step h.rev f0, bind_apply]
      unfold M.attempt
      rw [show (upperTok nA nB t u baseA baseB).name = nA from rfl, hl]
      rfl
    rw [hstep]
    refine mut_baseA h hn2 prev [] (lines := [(0, [])]) (keysIn_nil _) (by simp) ⟨.inr (by simp [Stk.get]), ?_⟩
    intro e
    simp [Stk.put, Stk.del]
  · have hmap : ((elemRaw sk nA 0 nB t (lowerRead sk nA nB u baseA baseB cur)).or (rawBase sk nA 1 baseA cur)).map (fun x => (x.1, sk x.2))
        = upperRead sk nA nB t u baseA baseB cur := by
      unfold upperRead
      rw [← elemRaw_map, ← rawBase_map (name := nA)]
      cases elemRaw sk nA 0 nB t (lowerRead sk nA nB u baseA baseB cur) <;> rfl
    rw [← hmap]
    refine close_end (h.skip _ hn2) hent ?_
    have hin := mut_lower h hn prev cur hne
    have hel := run_called (m := n + 2) (c := .token (lowerTok nA nB u baseB)) (tok := lowerTok nA nB u baseB) hne
      (s := [(nA, ⟨upperTok nA nB t u baseA baseB, [(0, cur)]⟩)]) rfl hin
    have hl := run_elemLine (h.peg _ hn2) (h.skip _ hn2) h.rev (Nat.le_trans h.le hn2) h.ct h.dt (keysIn_nil _) hne hel 0
    refine block_first (m := n + 2) (c := .token (lowerTok nA nB u baseB)) (tail := t) (tok := upperTok nA nB t u baseA baseB) (gs := baseA)
      h.rev h.namesT ?_ ?_ hl rfl ?_
    · simp [Stk.get, upperTok, Token.name]
    · simp [Stk.put, Stk.del, upperTok, Token.name]
    · refine mut_baseA h hn2 prev cur (lines := []) (keysIn_nil _) (by simp) ⟨.inl ⟨rfl, rfl⟩, ?_⟩
      intro e
      simp [Stk.put, Stk.del]

end

theorem mutOK {sk : Bytes → Bytes} {nA nB : String} {t u : List Container} {baseA baseB : List GLine} {chs : List Channel} {N : Nat}
    (hsk : ∀ m, N ≤ m → SkipIs (token m) chs sk) (hab : nA ≠ nB) (hA : PegLines [nA, nB] baseA) (hB : PegLines [nB, nA] baseB)
    (hne : baseA ≠ []) (ht : PegConts [nA, nB] t) (hu : PegConts [nA, nB] u)
    (nt : sameNames (.element 1 (some 1) (.token (lowerTok nA nB u baseB)) :: t)) (nu : sameNames (selfRef nA :: u)) :
    MutOK sk ⟨none, chs, false⟩ nA nB t u baseA baseB (linesD baseA + linesD baseB + containersD t + containersD u)
      (N + (linesD baseA + linesD baseB + containersD t + containersD u)) :=
  ⟨rfl, fun n hn => peg_token (ctx := ⟨none, chs, false⟩) rfl hsk _ n hn, fun n hn => hsk n (by omega), by omega, hab, hA, hB, hne,
    fun g hg => by have := linesD_mem hg; omega, fun g hg => by have := linesD_mem hg; omega, ht, hu, by omega, by omega, nt, nu⟩

end Rodkina.Ast
