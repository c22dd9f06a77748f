import Verif.InterpPure

/-!
# What a module sees: lemmas
-/

namespace Rodkina.Interp

variable {W σ : Type}

/-! ## Compilation is incremental -/

theorem compileList_append (all : List (Module W σ)) (l1 l2 : List Instr) (cs : CState W σ) :
    compileList all (l1 ++ l2) cs = match compileList all l1 cs with
      | .err => .err
      | .panic => .panic
      | .ok cs' => compileList all l2 cs' := by
  induction l1 generalizing cs with
  | nil => simp [compileList]
  | cons i is ih =>
    rw [List.cons_append, compileList, compileList]
    cases compileInstr all i cs with
    | err => rfl
    | panic => rfl
    | ok cs1 => exact ih cs1

theorem compileInstr_grows (all : List (Module W σ)) (i : Instr) (cs cs' : CState W σ)
    (h : compileInstr all i cs = .ok cs') :
    (∃ x, cs'.instructions = cs.instructions ++ x) ∧ (∃ y, cs'.outputs = cs.outputs ++ y) ∧
      (¬ i.runs → cs'.instructions = cs.instructions ∧ cs'.outputs = cs.outputs) := by
  cases i with
  | module index name =>
    rw [compileInstr] at h
    unfold compileModule at h
    split at h
    · cases h
    · split at h
      · cases h
      · cases h; exact ⟨⟨[], by simp⟩, ⟨[], by simp⟩, fun _ => ⟨rfl, rfl⟩⟩
  | application module name =>
    rw [compileInstr] at h
    unfold compileApplication at h
    split at h
    · cases h
    · split at h
      · cases h
      · cases h; exact ⟨⟨[], by simp⟩, ⟨[], by simp⟩, fun _ => ⟨rfl, rfl⟩⟩
  | parameter name isInput =>
    rw [compileInstr] at h
    unfold compileParameter at h
    split at h
    · cases h
    · cases h; exact ⟨⟨[], by simp⟩, ⟨[], by simp⟩, fun _ => ⟨rfl, rfl⟩⟩
  | assignment name v =>
    rw [compileInstr] at h
    split at h
    · cases h
    · cases h
    · cases h
      refine ⟨⟨_, rfl⟩, ?_, fun hn => absurd trivial hn⟩
      unfold compileAssignment
      simp only
      split
      · exact ⟨[], by simp⟩
      · split
        · exact ⟨[], by simp⟩
        · exact ⟨_, rfl⟩
  | attachment c t a =>
    rw [compileInstr] at h
    unfold compileAttachment at h
    split at h
    · cases h
    · cases h
    · split at h
      · cases h
      · cases h; exact ⟨⟨[], by simp⟩, ⟨[], by simp⟩, fun _ => ⟨rfl, rfl⟩⟩
  | execution a =>
    rw [compileInstr] at h
    unfold compileExecution at h
    split at h
    · cases h
    · cases h; exact ⟨⟨_, rfl⟩, ⟨[], by simp⟩, fun hn => absurd trivial hn⟩

theorem compileList_grows (all : List (Module W σ)) (l : List Instr) (cs cs' : CState W σ)
    (h : compileList all l cs = .ok cs') :
    (∃ x, cs'.instructions = cs.instructions ++ x) ∧ (∃ y, cs'.outputs = cs.outputs ++ y) ∧
      ((∀ i ∈ l, ¬ i.runs) → cs'.instructions = cs.instructions ∧ cs'.outputs = cs.outputs) := by
  induction l generalizing cs with
  | nil => rw [compileList] at h; cases h; exact ⟨⟨[], by simp⟩, ⟨[], by simp⟩, fun _ => ⟨rfl, rfl⟩⟩
  | cons i is ih =>
    rw [compileList] at h
    split at h
    · cases h
    · cases h
    · next cs1 h1 =>
      obtain ⟨⟨x1, e1⟩, ⟨y1, f1⟩, g1⟩ := compileInstr_grows all i cs cs1 h1
      obtain ⟨⟨x2, e2⟩, ⟨y2, f2⟩, g2⟩ := ih cs1 h
      refine ⟨⟨x1 ++ x2, by rw [e2, e1, List.append_assoc]⟩, ⟨y1 ++ y2, by rw [f2, f1, List.append_assoc]⟩, ?_⟩
      intro hr
      obtain ⟨a1, b1⟩ := g1 (hr i (List.mem_cons_self ..))
      obtain ⟨a2, b2⟩ := g2 (fun j hj => hr j (List.mem_cons_of_mem _ hj))
      exact ⟨a2.trans a1, b2.trans b1⟩

/-! ## Scoping of prefixes -/

theorem scopedAfter_append (ex : Nat → Prop) (pre l1 l2 : List Instr) :
    ScopedAfter ex pre (l1 ++ l2) ↔ ScopedAfter ex pre l1 ∧ ScopedAfter ex (pre ++ l1) l2 := by
  induction l1 generalizing pre with
  | nil => simp [ScopedAfter]
  | cons i is ih => rw [List.cons_append, ScopedAfter, ScopedAfter, ih]; simp [and_assoc]

theorem scoped_once (ex : Nat → Prop) (pre l : List Instr) (h : ScopedAfter ex pre l) (m a : String)
    (hm : .application m a ∈ pre) (m' : String) : Instr.application m' a ∉ l := by
  induction l generalizing pre with
  | nil => simp
  | cons i is ih =>
    rw [ScopedAfter] at h
    rw [List.mem_cons, not_or]
    refine ⟨?_, ih (pre ++ [i]) h.2 (List.mem_append_left _ hm)⟩
    rintro rfl
    have := h.1
    rw [Instr.Scoped] at this
    exact this.2 m hm

/-! ## Targets -/

/-- What is known by name after the instructions `pre`. -/
structure Seen {V : Type} (all : List (Module W σ)) (pre : List Instr) (e : Env W σ V) : Prop where
  modules : ∀ n m, e.modules n = some m → ∃ i, .module i n ∈ pre ∧ lastModule all i = some m
  apps : ∀ n m atts, e.apps n = some (m, atts) →
    (∃ k i, .application k n ∈ pre ∧ .module i k ∈ pre ∧ lastModule all i = some m) ∧
    ∀ t, (∃ b ∈ atts, b.1 = t) ↔ ∃ c, .attachment c t n ∈ pre
  attached : ∀ c t n, .attachment c t n ∈ pre → ∃ k, .application k n ∈ pre
  outNames : ∀ n, e.outNames n = true ↔ .parameter n false ∈ pre

theorem seen_byName (all : List (Module W σ)) (input : List (Val W)) (ex : Nat → Prop) (src pre : List Instr)
    (e e' : Env W σ (EM σ (Val W))) (he : Seen all pre e) (hs : ScopedAfter ex pre src) (s s' : σ)
    (h : byNameList all input src e s = (.ok e', s')) : Seen all (pre ++ src) e' := by
  induction src generalizing pre e s with
  | nil => rw [byNameList] at h; cases h; simpa using he
  | cons i is ih =>
    rw [byNameList] at h
    obtain ⟨e1, s1, h1, h2⟩ := bind_ok h
    rw [ScopedAfter] at hs
    have key : Seen all (pre ++ [i]) e1 := by
      cases i with
      | module index name =>
        rw [byNameInstr] at h1
        cases hf : lastModule all index with
        | none => rw [hf] at h1; cases h1
        | some m =>
          rw [hf] at h1; cases h1
          refine ⟨?_, ?_, ?_, ?_⟩
          · intro n m' hm
            simp only [setAt] at hm
            split at hm
            · next hn => cases hm; exact ⟨index, by simp [hn], hf⟩
            · obtain ⟨i, hi, hi'⟩ := he.modules n m' hm
              exact ⟨i, by simp [hi], hi'⟩
          · intro n m' atts ha
            obtain ⟨⟨k, i, h1, h2, h3⟩, h4⟩ := he.apps n m' atts ha
            exact ⟨⟨k, i, by simp [h1], by simp [h2], h3⟩, fun t => by rw [h4 t]; simp⟩
          · intro c t n hc
            obtain ⟨k, hk⟩ := he.attached c t n (by simpa using hc)
            exact ⟨k, by simp [hk]⟩
          · intro n; simp [he.outNames n]
      | application module name =>
        rw [byNameInstr] at h1
        cases hf : e.modules module with
        | none => rw [hf] at h1; cases h1
        | some m =>
          rw [hf] at h1; cases h1
          have hnew := hs.1
          rw [Instr.Scoped] at hnew
          refine ⟨?_, ?_, ?_, ?_⟩
          · intro n m' hm
            obtain ⟨i, hi, hi'⟩ := he.modules n m' hm
            exact ⟨i, by simp [hi], hi'⟩
          · intro n m' atts ha
            simp only [setAt] at ha
            split at ha
            · next hn =>
              cases ha
              subst hn
              obtain ⟨i, hi, hi'⟩ := he.modules module m hf
              refine ⟨⟨module, i, by simp, by simp [hi], hi'⟩, fun t => ?_⟩
              simp only [List.not_mem_nil, false_and, exists_false, false_iff, not_exists]
              intro c hc
              obtain ⟨k, hk⟩ := he.attached c t n (by simpa using hc)
              exact hnew.2 k hk
            · obtain ⟨⟨k, i, h1, h2, h3⟩, h4⟩ := he.apps n m' atts ha
              exact ⟨⟨k, i, by simp [h1], by simp [h2], h3⟩, fun t => by rw [h4 t]; simp⟩
          · intro c t n hc
            obtain ⟨k, hk⟩ := he.attached c t n (by simpa using hc)
            exact ⟨k, by simp [hk]⟩
          · intro n; simp [he.outNames n]
      | parameter name isInput =>
        have happs : ∀ n m' atts, e.apps n = some (m', atts) →
            (∃ k i, .application k n ∈ pre ++ [.parameter name isInput] ∧
              .module i k ∈ pre ++ [.parameter name isInput] ∧ lastModule all i = some m') ∧
            ∀ t, (∃ b ∈ atts, b.1 = t) ↔ ∃ c, .attachment c t n ∈ pre ++ [.parameter name isInput] := by
          intro n m' atts ha
          obtain ⟨⟨k, i, h1, h2, h3⟩, h4⟩ := he.apps n m' atts ha
          exact ⟨⟨k, i, by simp [h1], by simp [h2], h3⟩, fun t => by rw [h4 t]; simp⟩
        have hmods : ∀ n m, e.modules n = some m → ∃ i, .module i n ∈ pre ++ [.parameter name isInput] ∧
            lastModule all i = some m := by
          intro n m' hm
          obtain ⟨i, hi, hi'⟩ := he.modules n m' hm
          exact ⟨i, by simp [hi], hi'⟩
        have hattached : ∀ c t n, .attachment c t n ∈ pre ++ [.parameter name isInput] →
            ∃ k, .application k n ∈ pre ++ [.parameter name isInput] := by
          intro c t n hc
          obtain ⟨k, hk⟩ := he.attached c t n (by simpa using hc)
          exact ⟨k, by simp [hk]⟩
        cases isInput with
        | true =>
          rw [byNameInstr] at h1; cases h1
          exact ⟨hmods, happs, hattached, fun n => by simp [he.outNames n]⟩
        | false =>
          rw [byNameInstr] at h1; cases h1
          refine ⟨hmods, happs, hattached, fun n => ?_⟩
          simp [he.outNames n, or_comm]
      | assignment name v =>
        rw [byNameInstr] at h1
        obtain ⟨x, s2, h3, h4⟩ := bind_ok h1
        cases h4
        refine ⟨?_, ?_, ?_, ?_⟩
        · intro n m' hm
          obtain ⟨i, hi, hi'⟩ := he.modules n m' hm
          exact ⟨i, by simp [hi], hi'⟩
        · intro n m' atts ha
          obtain ⟨⟨k, i, h1, h2, h3⟩, h4⟩ := he.apps n m' atts ha
          exact ⟨⟨k, i, by simp [h1], by simp [h2], h3⟩, fun t => by rw [h4 t]; simp⟩
        · intro c t n hc
          obtain ⟨k, hk⟩ := he.attached c t n (by simpa using hc)
          exact ⟨k, by simp [hk]⟩
        · intro n; simp [he.outNames n]
      | attachment c t a =>
        rw [byNameInstr] at h1
        cases hx : (e.vars c <|> e.inputs c) with
        | none => rw [hx] at h1; cases h1
        | some x =>
          cases ha : e.apps a with
          | none => rw [hx, ha] at h1; cases h1
          | some ap =>
            rw [hx, ha] at h1; cases h1
            obtain ⟨m0, atts0⟩ := ap
            have hold := he.apps a m0 atts0 ha
            refine ⟨?_, ?_, ?_, ?_⟩
            · intro n m' hm
              obtain ⟨i, hi, hi'⟩ := he.modules n m' hm
              exact ⟨i, by simp [hi], hi'⟩
            · intro n m' atts h
              simp only [setAt] at h
              split at h
              · next hn =>
                cases h
                subst hn
                obtain ⟨⟨k, i, h1, h2, h3⟩, h4⟩ := hold
                refine ⟨⟨k, i, by simp [h1], by simp [h2], h3⟩, fun t' => ?_⟩
                simp only [List.mem_append, List.mem_singleton, Instr.attachment.injEq]
                constructor
                · rintro ⟨b, hb | rfl, hbt⟩
                  · obtain ⟨c', hc'⟩ := (h4 t').mp ⟨b, hb, hbt⟩
                    exact ⟨c', .inl hc'⟩
                  · exact ⟨c, .inr ⟨rfl, hbt.symm, trivial⟩⟩
                · rintro ⟨c', hc' | ⟨rfl, rfl, _⟩⟩
                  · obtain ⟨b, hb, hbt⟩ := (h4 t').mpr ⟨c', hc'⟩
                    exact ⟨b, .inl hb, hbt⟩
                  · exact ⟨_, .inr rfl, rfl⟩
              · next hn =>
                obtain ⟨⟨k, i, h1, h2, h3⟩, h4⟩ := he.apps n m' atts h
                refine ⟨⟨k, i, by simp [h1], by simp [h2], h3⟩, fun t => ?_⟩
                rw [h4 t]
                simp [hn]
            · intro c' t' n hc
              rw [List.mem_append, List.mem_singleton] at hc
              rcases hc with hc | hc
              · obtain ⟨k, hk⟩ := he.attached c' t' n hc
                exact ⟨k, by simp [hk]⟩
              · cases hc
                obtain ⟨⟨k, i, h1, _⟩, _⟩ := hold
                exact ⟨k, by simp [h1]⟩
            · intro n; simp [he.outNames n]
      | execution a =>
        rw [byNameInstr] at h1
        cases ha : e.apps a with
        | none => rw [ha] at h1; cases h1
        | some ap =>
          rw [ha] at h1
          obtain ⟨x, s2, h3, h4⟩ := bind_ok h1
          cases h4
          refine ⟨?_, ?_, ?_, ?_⟩
          · intro n m' hm
            obtain ⟨i, hi, hi'⟩ := he.modules n m' hm
            exact ⟨i, by simp [hi], hi'⟩
          · intro n m' atts ha
            obtain ⟨⟨k, i, h1, h2, h3⟩, h4⟩ := he.apps n m' atts ha
            exact ⟨⟨k, i, by simp [h1], by simp [h2], h3⟩, fun t => by rw [h4 t]; simp⟩
          · intro c t n hc
            obtain ⟨k, hk⟩ := he.attached c t n (by simpa using hc)
            exact ⟨k, by simp [hk]⟩
          · intro n; simp [he.outNames n]
    have := ih (pre ++ [i]) e1 key hs.2 s1 h2
    simpa using this

theorem runAttached_targets (atts : List (Nat × EM σ (Val W))) (ps ps' : Params W) (s s' : σ)
    (h : runAttached atts ps s = (.ok ps', s')) (t : Nat) :
    (ps' t).isSome ↔ (ps t).isSome ∨ ∃ b ∈ atts, b.1 = t := by
  induction atts generalizing ps s with
  | nil => rw [runAttached] at h; cases h; simp
  | cons a atts ih =>
    rw [runAttached] at h
    obtain ⟨x, s1, _, h2⟩ := bind_ok h
    rw [ih _ _ h2]
    simp only [Params.set, List.mem_cons, exists_eq_or_imp]
    by_cases ht : t = a.1
    · simp [ht]
    · rw [if_neg ht]
      have : ¬ a.1 = t := fun h => ht h.symm
      simp [this]

theorem byNameList_append (all : List (Module W σ)) (input : List (Val W)) (l1 l2 : List Instr)
    (e : Env W σ (EM σ (Val W))) :
    byNameList all input (l1 ++ l2) e = byNameList all input l1 e >>= fun e' => byNameList all input l2 e' := by
  induction l1 generalizing e with
  | nil => rw [List.nil_append, byNameList, pure_bind]
  | cons i is ih =>
    rw [List.cons_append, byNameList, byNameList, bind_assoc]
    congr 1
    funext e'
    exact ih e'

theorem callModule_ok {m : Module W σ} {ps : Params W} {s s' : σ} {v : Val W}
    (h : callModule m ps s = (.ok v, s')) : m.fn ps s = (.ok v, s') := by
  unfold callModule at h
  rcases hm : m.fn ps s with ⟨o, s1⟩
  rw [hm] at h
  cases o with
  | ok v => cases h; rfl
  | err => cases h
  | panic => cases h

/-- `th` is the last computation attached to the target `t`. -/
def LastFor (t : Nat) (atts : List (Nat × EM σ (Val W))) (th : EM σ (Val W)) : Prop :=
  ∃ l1 l2, atts = l1 ++ (t, th) :: l2 ∧ ∀ b ∈ l2, b.1 ≠ t

theorem runAttached_append (l1 l2 : List (Nat × EM σ (Val W))) (ps : Params W) :
    runAttached (l1 ++ l2) ps = runAttached l1 ps >>= fun ps' => runAttached l2 ps' := by
  induction l1 generalizing ps with
  | nil => rw [List.nil_append, runAttached, pure_bind]
  | cons a l1 ih =>
    rw [List.cons_append, runAttached, runAttached, bind_assoc]
    congr 1
    funext x
    exact ih _

theorem runAttached_keeps (atts : List (Nat × EM σ (Val W))) (t : Nat) (h : ∀ b ∈ atts, b.1 ≠ t)
    (ps ps' : Params W) (s s' : σ) (hr : runAttached atts ps s = (.ok ps', s')) : ps' t = ps t := by
  induction atts generalizing ps s with
  | nil => rw [runAttached] at hr; cases hr; rfl
  | cons a atts ih =>
    rw [runAttached] at hr
    obtain ⟨x, s1, _, h2⟩ := bind_ok hr
    rw [ih (fun b hb => h b (List.mem_cons_of_mem _ hb)) _ _ h2]
    simp only [Params.set]
    rw [if_neg]
    exact fun ht => h a (List.mem_cons_self ..) ht.symm

theorem runAttached_last {atts : List (Nat × EM σ (Val W))} {t : Nat} {th : EM σ (Val W)}
    (h : LastFor t atts th) {ps ps' : Params W} {s s' : σ} (hr : runAttached atts ps s = (.ok ps', s')) :
    ∃ x s1 s2, th s1 = (.ok x, s2) ∧ ps' t = some x := by
  obtain ⟨l1, l2, rfl, hl⟩ := h
  rw [runAttached_append] at hr
  obtain ⟨ps1, s1, h1, h2⟩ := bind_ok hr
  rw [runAttached] at h2
  obtain ⟨x, s2, h3, h4⟩ := bind_ok h2
  refine ⟨x, s1, s2, h3, ?_⟩
  rw [runAttached_keeps l2 t hl _ _ _ _ h4]
  simp [Params.set]

theorem byName_keeps (all : List (Module W σ)) (input : List (Val W)) (a : String) (t : Nat) (src : List Instr)
    (e e' : Env W σ (EM σ (Val W))) (m : Module W σ) (atts : List (Nat × EM σ (Val W))) (th : EM σ (Val W))
    (ha : e.apps a = some (m, atts)) (hl : LastFor t atts th)
    (hn : ∀ k, .application k a ∉ src) (ht : ∀ c, .attachment c t a ∉ src) (s s' : σ)
    (h : byNameList all input src e s = (.ok e', s')) :
    ∃ atts', e'.apps a = some (m, atts') ∧ LastFor t atts' th := by
  induction src generalizing e atts s with
  | nil => rw [byNameList] at h; cases h; exact ⟨atts, ha, hl⟩
  | cons i is ih =>
    rw [byNameList] at h
    obtain ⟨d1, s1, h1, h2⟩ := bind_ok h
    have hn' : ∀ k, .application k a ∉ is := fun k hk => hn k (List.mem_cons_of_mem _ hk)
    have ht' : ∀ c, .attachment c t a ∉ is := fun c hc => ht c (List.mem_cons_of_mem _ hc)
    have key : ∃ atts1, d1.apps a = some (m, atts1) ∧ LastFor t atts1 th := by
      cases i with
      | module index name =>
        rw [byNameInstr] at h1
        cases hf : lastModule all index with
        | none => rw [hf] at h1; cases h1
        | some m' => rw [hf] at h1; cases h1; exact ⟨atts, ha, hl⟩
      | application module name =>
        rw [byNameInstr] at h1
        cases hf : e.modules module with
        | none => rw [hf] at h1; cases h1
        | some m' =>
          rw [hf] at h1; cases h1
          refine ⟨atts, ?_, hl⟩
          simp only [setAt]
          rw [if_neg]
          · exact ha
          · rintro rfl; exact hn module (List.mem_cons_self ..)
      | parameter name isInput =>
        cases isInput <;> (rw [byNameInstr] at h1; cases h1; exact ⟨atts, ha, hl⟩)
      | assignment name v =>
        rw [byNameInstr] at h1
        obtain ⟨x, s2, h3, h4⟩ := bind_ok h1
        cases h4
        exact ⟨atts, ha, hl⟩
      | attachment c' t' a' =>
        rw [byNameInstr] at h1
        cases hx : (e.vars c' <|> e.inputs c') with
        | none => rw [hx] at h1; cases h1
        | some x =>
          cases ha' : e.apps a' with
          | none => rw [hx, ha'] at h1; cases h1
          | some ap =>
            rw [hx, ha'] at h1; cases h1
            simp only [setAt]
            by_cases haa : a = a'
            · subst haa
              rw [ha] at ha'
              cases ha'
              refine ⟨atts ++ [(t', x)], by rw [if_pos rfl], ?_⟩
              obtain ⟨l1, l2, rfl, hl2⟩ := hl
              refine ⟨l1, l2 ++ [(t', x)], by simp, ?_⟩
              intro b hb
              rcases List.mem_append.mp hb with hb | hb
              · exact hl2 b hb
              · rw [List.mem_singleton] at hb
                subst hb
                rintro rfl
                exact ht c' (List.mem_cons_self ..)
            · exact ⟨atts, by rw [if_neg haa]; exact ha, hl⟩
      | execution a' =>
        rw [byNameInstr] at h1
        cases ha' : e.apps a' with
        | none => rw [ha'] at h1; cases h1
        | some ap =>
          rw [ha'] at h1
          obtain ⟨x, s2, h3, h4⟩ := bind_ok h1
          cases h4
          exact ⟨atts, ha, hl⟩
    obtain ⟨atts1, k1, k2⟩ := key
    exact ih d1 atts1 k1 k2 hn' ht' s1 h2

/-- What a module is called with after the instructions `pre`. -/
theorem sees_core (all : List (Module W σ)) (ex : Nat → Prop) (input : List (Val W)) (pre : List Instr)
    (a : String) (hsc : ScopedAfter ex [] pre) (s s1 s5 : σ) (e1 : Env W σ (EM σ (Val W)))
    (h3 : byNameList all input pre {} s = (.ok e1, s1)) (m : Module W σ) (atts : List (Nat × EM σ (Val W)))
    (ha : e1.apps a = some (m, atts)) (ps : Params W)
    (h9 : runAttached atts (fun _ => none) s1 = (.ok ps, s5)) :
    (∃ k i, .application k a ∈ pre ∧ .module i k ∈ pre ∧ lastModule all i = some m) ∧
      (∀ t, (ps t).isSome ↔ ∃ c, .attachment c t a ∈ pre) ∧
      ∀ pre1 c t pre2, pre = pre1 ++ .attachment c t a :: pre2 → (∀ c', .attachment c' t a ∉ pre2) →
        ∃ e1 s2 th x s3 s4, byNameList all input pre1 {} s = (.ok e1, s2) ∧
          (e1.vars c <|> e1.inputs c) = some th ∧ th s3 = (.ok x, s4) ∧ ps t = some x := by
  have hseen := seen_byName all input ex pre [] {} e1 ⟨by simp, by simp, by simp, by simp⟩ hsc s s1 h3
  rw [List.nil_append] at hseen
  obtain ⟨⟨k, i, q1, q2, q3⟩, q4⟩ := hseen.apps a m atts ha
  refine ⟨⟨k, i, q1, q2, q3⟩, ?_, ?_⟩
  · intro t
    rw [runAttached_targets atts _ ps s1 s5 h9 t, ← q4 t]
    simp
  · rintro pre1 c t pre2 rfl hlast
    rw [byNameList_append] at h3
    obtain ⟨d1, r1, g1, g2⟩ := bind_ok h3
    rw [byNameList] at g2
    obtain ⟨d2, r2, g3, g4⟩ := bind_ok g2
    rw [byNameInstr] at g3
    cases hx : (d1.vars c <|> d1.inputs c) with
    | none => rw [hx] at g3; cases g3
    | some th =>
      cases ha1 : d1.apps a with
      | none => rw [hx, ha1] at g3; cases g3
      | some ap1 =>
        obtain ⟨m1, atts1⟩ := ap1
        rw [hx, ha1] at g3
        cases g3
        have hsc2 := ((scopedAfter_append _ _ _ _).mp hsc).2
        rw [ScopedAfter] at hsc2
        have hat := hsc2.1
        rw [Instr.Scoped] at hat
        obtain ⟨k', hk'⟩ := hat.2
        obtain ⟨atts', r3, r4⟩ := byName_keeps all input a t pre2 _ e1 m1 (atts1 ++ [(t, th)]) th
          (by simp [setAt]) ⟨atts1, [], rfl, by simp⟩
          (scoped_once _ _ _ hsc2.2 k' a (by simpa using hk')) hlast _ _ g4
        rw [ha] at r3
        cases r3
        obtain ⟨x, s6, s7, w1, w2⟩ := runAttached_last r4 h9
        exact ⟨d1, r1, th, x, s6, s7, g1, hx, w1, w2⟩

theorem byName_sees (all : List (Module W σ)) (input : List (Val W)) (pre : List Instr) (o a : String)
    (hs : WellScoped all (pre ++ [.assignment o (.execution a)])) (ho : .parameter o false ∈ pre)
    (s s' : σ) (outs : List (Val W))
    (h : byName all input (pre ++ [.assignment o (.execution a)]) s = (.ok outs, s')) :
    ∃ k i m ps s1 v, .application k a ∈ pre ∧ .module i k ∈ pre ∧ lastModule all i = some m ∧
      m.fn ps s1 = (.ok v, s') ∧ outs.getLast? = some v ∧
      (∀ t, (ps t).isSome ↔ ∃ c, .attachment c t a ∈ pre) ∧
      ∀ pre1 c t pre2, pre = pre1 ++ .attachment c t a :: pre2 → (∀ c', .attachment c' t a ∉ pre2) →
        ∃ e1 s2 th x s3 s4, byNameList all input pre1 {} s = (.ok e1, s2) ∧
          (e1.vars c <|> e1.inputs c) = some th ∧ th s3 = (.ok x, s4) ∧ ps t = some x := by
  unfold byName at h
  rw [byNameList_append] at h
  obtain ⟨e2, s2, h1, h2⟩ := bind_ok h
  obtain ⟨e1, s1, h3, h4⟩ := bind_ok h1
  cases h2
  have hsc := ((scopedAfter_append _ _ _ _).mp hs.1).1
  have hseen := seen_byName all input _ pre [] {} e1 ⟨by simp, by simp, by simp, by simp⟩ hsc s s1 h3
  rw [List.nil_append] at hseen
  rw [byNameList] at h4
  obtain ⟨e3, s3, h5, h6⟩ := bind_ok h4
  rw [byNameList] at h6
  cases h6
  rw [byNameInstr] at h5
  obtain ⟨v, s4, h7, h8⟩ := bind_ok h5
  cases h8
  rw [byNameValue] at h7
  cases ha : e1.apps a with
  | none => rw [ha] at h7; cases h7
  | some ap =>
    obtain ⟨m, atts⟩ := ap
    rw [ha] at h7
    obtain ⟨ps, s5, h9, h10⟩ := bind_ok h7
    obtain ⟨⟨k, i, q1, q2, q3⟩, q4, q5⟩ := sees_core all _ input pre a hsc s s1 s5 e1 h3 m atts ha ps h9
    exact ⟨k, i, m, ps, s5, v, q1, q2, q3, callModule_ok h10, by simp [(hseen.outNames o).mpr ho], q4, q5⟩

theorem byName_sees_execution (all : List (Module W σ)) (input : List (Val W)) (pre : List Instr) (a : String)
    (hs : WellScoped all (pre ++ [.execution a]))
    (s s' : σ) (outs : List (Val W))
    (h : byName all input (pre ++ [.execution a]) s = (.ok outs, s')) :
    ∃ k i m ps s1 v, .application k a ∈ pre ∧ .module i k ∈ pre ∧ lastModule all i = some m ∧
      m.fn ps s1 = (.ok v, s') ∧
      (∀ t, (ps t).isSome ↔ ∃ c, .attachment c t a ∈ pre) ∧
      ∀ pre1 c t pre2, pre = pre1 ++ .attachment c t a :: pre2 → (∀ c', .attachment c' t a ∉ pre2) →
        ∃ e1 s2 th x s3 s4, byNameList all input pre1 {} s = (.ok e1, s2) ∧
          (e1.vars c <|> e1.inputs c) = some th ∧ th s3 = (.ok x, s4) ∧ ps t = some x := by
  unfold byName at h
  rw [byNameList_append] at h
  obtain ⟨e2, s2, h1, h2⟩ := bind_ok h
  obtain ⟨e1, s1, h3, h4⟩ := bind_ok h1
  cases h2
  have hsc := ((scopedAfter_append _ _ _ _).mp hs.1).1
  rw [byNameList] at h4
  obtain ⟨e3, s3, h5, h6⟩ := bind_ok h4
  rw [byNameList] at h6
  cases h6
  rw [byNameInstr] at h5
  cases ha : e1.apps a with
  | none => rw [ha] at h5; cases h5
  | some ap =>
    obtain ⟨m, atts⟩ := ap
    rw [ha] at h5
    obtain ⟨v, s4, h7, h8⟩ := bind_ok h5
    obtain ⟨ps, s5, h9, h10⟩ := bind_ok h7
    obtain ⟨⟨k, i, q1, q2, q3⟩, q4, q5⟩ := sees_core all _ input pre a hsc s s1 s5 e1 h3 m atts ha ps h9
    cases h8
    exact ⟨k, i, m, ps, s5, v, q1, q2, q3, callModule_ok h10, q4, q5⟩

/-! ## Values -/

theorem directList_append (all : List (Module W σ)) (input : List (Val W)) (l1 l2 : List Instr)
    (d : Env W σ (Val W)) :
    directList all input (l1 ++ l2) d = directList all input l1 d >>= fun d' => directList all input l2 d' := by
  induction l1 generalizing d with
  | nil => rw [List.nil_append, directList, pure_bind]
  | cons i is ih =>
    rw [List.cons_append, directList, directList, bind_assoc]
    congr 1
    funext d'
    exact ih d'

theorem paramsOf_append (atts : List (Nat × Val W)) (a : Nat × Val W) :
    paramsOf (atts ++ [a]) = (paramsOf atts).set a.1 a.2 := by
  simp [paramsOf]

theorem direct_keeps (all : List (Module W σ)) (input : List (Val W)) (a : String) (t : Nat) (src : List Instr)
    (d d' : Env W σ (Val W)) (m : Module W σ) (atts : List (Nat × Val W)) (ha : d.apps a = some (m, atts))
    (hn : ∀ k, .application k a ∉ src) (ht : ∀ c, .attachment c t a ∉ src) (s s' : σ)
    (h : directList all input src d s = (.ok d', s')) :
    ∃ atts', d'.apps a = some (m, atts') ∧ paramsOf atts' t = paramsOf atts t := by
  induction src generalizing d atts s with
  | nil => rw [directList] at h; cases h; exact ⟨atts, ha, rfl⟩
  | cons i is ih =>
    rw [directList] at h
    obtain ⟨d1, s1, h1, h2⟩ := bind_ok h
    have hn' : ∀ k, .application k a ∉ is := fun k hk => hn k (List.mem_cons_of_mem _ hk)
    have ht' : ∀ c, .attachment c t a ∉ is := fun c hc => ht c (List.mem_cons_of_mem _ hc)
    have key : ∃ atts1, d1.apps a = some (m, atts1) ∧ paramsOf atts1 t = paramsOf atts t := by
      cases i with
      | module index name =>
        rw [directInstr] at h1
        cases hf : lastModule all index with
        | none => rw [hf] at h1; cases h1
        | some m' => rw [hf] at h1; cases h1; exact ⟨atts, ha, rfl⟩
      | application module name =>
        rw [directInstr] at h1
        cases hf : d.modules module with
        | none => rw [hf] at h1; cases h1
        | some m' =>
          rw [hf] at h1; cases h1
          refine ⟨atts, ?_, rfl⟩
          simp only [setAt]
          rw [if_neg]
          · exact ha
          · rintro rfl; exact hn module (List.mem_cons_self ..)
      | parameter name isInput =>
        cases isInput with
        | true =>
          rw [directInstr] at h1
          obtain ⟨x, s2, h3, h4⟩ := bind_ok h1
          cases h4
          exact ⟨atts, ha, rfl⟩
        | false => rw [directInstr] at h1; cases h1; exact ⟨atts, ha, rfl⟩
      | assignment name v =>
        rw [directInstr] at h1
        obtain ⟨x, s2, h3, h4⟩ := bind_ok h1
        cases h4
        exact ⟨atts, ha, rfl⟩
      | attachment c' t' a' =>
        rw [directInstr] at h1
        cases hx : d.vars c' with
        | none => rw [hx] at h1; cases h1
        | some x =>
          cases ha' : d.apps a' with
          | none => rw [hx, ha'] at h1; cases h1
          | some ap =>
            rw [hx, ha'] at h1; cases h1
            simp only [setAt]
            by_cases haa : a = a'
            · subst haa
              rw [ha] at ha'
              cases ha'
              refine ⟨atts ++ [(t', x)], by rw [if_pos rfl], ?_⟩
              rw [paramsOf_append]
              simp only [Params.set]
              rw [if_neg]
              rintro rfl
              exact ht c' (List.mem_cons_self ..)
            · exact ⟨atts, by rw [if_neg haa]; exact ha, rfl⟩
      | execution a' =>
        rw [directInstr] at h1
        cases ha' : d.apps a' with
        | none => rw [ha'] at h1; cases h1
        | some ap =>
          rw [ha'] at h1
          obtain ⟨x, s2, h3, h4⟩ := bind_ok h1
          cases h4
          exact ⟨atts, ha, rfl⟩
    obtain ⟨atts1, k1, k2⟩ := key
    obtain ⟨atts2, k3, k4⟩ := ih d1 atts1 k1 hn' ht' s1 h2
    exact ⟨atts2, k3, k4.trans k2⟩

theorem nestedInputsKept_left (l1 l2 : List Instr) (h : nestedInputsKept (l1 ++ l2)) : nestedInputsKept l1 := by
  induction l1 with
  | nil => rw [nestedInputsKept]; trivial
  | cons i is ih =>
    rw [List.cons_append, nestedInputsKept] at h
    rw [nestedInputsKept]
    exact ⟨h.1, ih h.2⟩

theorem nestedInputsAtMost_left (n : Nat) (l1 l2 : List Instr) (h : nestedInputsAtMost n (l1 ++ l2)) :
    nestedInputsAtMost n l1 := by
  induction l1 with
  | nil => rw [nestedInputsAtMost]; trivial
  | cons i is ih =>
    rw [List.cons_append, nestedInputsAtMost] at h
    rw [nestedInputsAtMost]
    exact ⟨h.1, ih h.2⟩

theorem direct_sees (all : List (Module W σ)) (hp : PureModules all) (input : List (Val W)) (pre : List Instr)
    (o a : String) (hk : InputsKept (pre ++ [.assignment o (.execution a)]))
    (hn : EnoughInputs input.length (pre ++ [.assignment o (.execution a)]))
    (hs : WellScoped all (pre ++ [.assignment o (.execution a)])) (ho : .parameter o false ∈ pre)
    (s s' : σ) (outs : List (Val W))
    (h : direct all input (pre ++ [.assignment o (.execution a)]) s = (.ok outs, s')) :
    ∃ k i m s1 v, ∃ ps : Params W, .application k a ∈ pre ∧ .module i k ∈ pre ∧ lastModule all i = some m ∧
      m.fn ps s1 = (.ok v, s') ∧ outs.getLast? = some v ∧
      (∀ t, (∀ c, .attachment c t a ∉ pre) → ps t = none) ∧
      ∀ pre1 c t pre2, pre = pre1 ++ .attachment c t a :: pre2 → (∀ c', .attachment c' t a ∉ pre2) →
        ∃ d1 s2, directList all input pre1 {} s = (.ok d1, s2) ∧ (ps t).isSome ∧ ps t = d1.vars c := by
  unfold direct at h
  rw [directList_append] at h
  obtain ⟨e2, s2, h1, h2⟩ := bind_ok h
  obtain ⟨d, s1, h3, h4⟩ := bind_ok h1
  cases h2
  rw [directList] at h4
  obtain ⟨e3, s3, h5, h6⟩ := bind_ok h4
  rw [directList] at h6
  cases h6
  rw [directInstr] at h5
  obtain ⟨v, s4, h7, h8⟩ := bind_ok h5
  cases h8
  rw [directValue] at h7
  have hsc := ((scopedAfter_append _ _ _ _).mp hs.1).1
  have hkn := And.intro (nestedInputsKept_left pre _ hk.2) (nestedInputsAtMost_left _ pre _ hn.2)
  have hin : inputParameters pre ≤ input.length := by
    refine Nat.le_trans ?_ hn.1
    unfold inputParameters
    exact ((List.sublist_append_left pre _).filter _).length_le
  have hsim := simList hp input pre [] {} {} (EnvSim.empty all)
    (fun x v hx hv => hk.1 x v (List.mem_append_left _ (by simpa using hx)) (List.mem_append_left _ (by simpa using hv)))
    hkn.1 (by simpa using hin) hkn.2 _ hsc
  rw [List.nil_append] at hsim
  obtain ⟨e, hev, hed⟩ : ∃ e, byNameList all input pre {} s = (.ok e, s) ∧ EnvSim all pre e d := by
    rcases hsim with ⟨e, d', q1, q2, q3⟩ | ⟨r, q1, q2⟩ | ⟨q1, q2⟩
    · rw [q2] at h3
      cases h3
      exact ⟨e, by rw [q1]; rfl, q3⟩
    · rw [q2] at h3; cases h3
    · rw [q2] at h3; cases h3
  have hseen := seen_byName all input _ pre [] {} e ⟨by simp, by simp, by simp, by simp⟩ hsc s s hev
  rw [List.nil_append] at hseen
  cases ha : d.apps a with
  | none => rw [ha] at h7; cases h7
  | some ap =>
    obtain ⟨m, atts⟩ := ap
    rw [ha] at h7
    have hea : e.apps a = some (m, asThunks atts) := by rw [hed.apps, ha]; rfl
    obtain ⟨⟨k, i, q1, q2, q3⟩, q4⟩ := hseen.apps a m _ hea
    refine ⟨k, i, m, s1, v, paramsOf atts, q1, q2, q3, callModule_ok h7, ?_, ?_, ?_⟩
    · have : d.outNames o = true := by rw [← hed.outNames]; exact (hseen.outNames o).mpr ho
      simp [this]
    · intro t ht
      have hnone : ¬ ∃ b ∈ (asThunks atts : List (Nat × EM σ (Val W))), b.1 = t := by
        rw [q4 t]
        rintro ⟨c, hc⟩
        exact ht c hc
      have := runAttached_targets (asThunks atts : List (Nat × EM σ (Val W))) (fun _ => none) (paramsOf atts) s s
        (by rw [runAttached_asThunks]; rfl) t
      cases hpt : paramsOf atts t with
      | none => rfl
      | some x =>
        rw [hpt] at this
        exact absurd (this.mp rfl) (by simpa using hnone)
    · rintro pre1 c t pre2 rfl hlast
      rw [directList_append] at h3
      obtain ⟨d1, q1, h9, h10⟩ := bind_ok h3
      refine ⟨d1, q1, h9, ?_⟩
      rw [directList] at h10
      obtain ⟨d2, q2, h11, h12⟩ := bind_ok h10
      rw [directInstr] at h11
      cases hx : d1.vars c with
      | none => rw [hx] at h11; cases h11
      | some x =>
        cases ha1 : d1.apps a with
        | none => rw [hx, ha1] at h11; cases h11
        | some ap1 =>
          obtain ⟨m1, atts1⟩ := ap1
          rw [hx, ha1] at h11
          cases h11
          have hsc2 := ((scopedAfter_append _ _ _ _).mp hsc).2
          rw [ScopedAfter] at hsc2
          have hat := hsc2.1
          rw [Instr.Scoped] at hat
          obtain ⟨k, hk⟩ := hat.2
          obtain ⟨atts', r1, r2⟩ := direct_keeps all input a t pre2 _ d m1 (atts1 ++ [(t, x)]) (by simp [setAt])
            (scoped_once _ _ _ hsc2.2 k a (by simpa using hk)) hlast _ _ h12
          rw [ha] at r1
          cases r1
          rw [r2, paramsOf_append]
          simp [Params.set]

end Rodkina.Interp
