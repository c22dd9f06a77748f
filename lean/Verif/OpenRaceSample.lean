import Verif.OpenRaceLemmas
/-! A database with one long content, for C129. -/

namespace Rodkina
namespace DB

open Ref

/-- A content of 4001 bytes. -/
def contentL : Content := ⟨List.replicate 64 5, 1 :: List.replicate 4000 0, 7⟩

theorem contentL_length : contentL.data.length = 4001 := by
  simp only [contentL, List.length_cons, List.length_replicate]

/-- The context in which it is pending. -/
def ctxL : Ctx := ⟨['a'], ⟨0, 0, true⟩, none, 0, [contentL]⟩

theorem longWritten_reachable (S : Sha) (l : Prop) :
    Reachable (sampleCfg S 10000) (sampleUsage l) ⟨fs0.create ['a'], [(0, ctxL)]⟩ := by
  obtain ⟨s0, h0, h⟩ := sOpen_reachable S 10000 l
  exact ⟨s0, h0, .tail _ _ _ h (.write sOpen 0 contentL.hash contentL.data 7 _ (by simp only [contentL, List.length_replicate]) (by decide) rfl)⟩

/-- After the first commit, with a second content pending. -/
structure LongReady (S : Sha) (l : Prop) (s : State) (c : Ctx) (r0 : Reference) (key : ContentKey) : Prop where
  reachable : Reachable (sampleCfg S 10000) (sampleUsage l) s
  get : s.app.get 0 = some c
  name : c.name = ['a']
  isOpen : c.conn.isOpen = true
  pending : c.contentList = [contentY]
  reference : c.reference = some r0
  offset : c.dataOffset = (refData r0).length
  file : s.fs.ino c.conn.ino = refData r0 ++ contentL.data
  keys : r0.contentKeys.list = [key]
  hash : key.hash = contentL.hash
  content : key.content = ⟨0, 4001⟩
  commits : r0.commits.list.length = 1
  small : SmallCommits r0.commits.list
  linked : s.fs.dir ['a'] = some c.conn.ino
  le : (refData r0).length ≤ 600

theorem long_ready (S : Sha) (l : Prop) : ∃ s c r0 key, LongReady S l s c r0 key := by
  have hn := sampleNames S 10000 l
  have hw := longWritten_reachable S l
  have hl := contentL_length
  obtain ⟨q1, q2, t, r, j, hu, hs, ha, hd, hi, _⟩ := small_commit (id := 0) (now := 5) hn (hw.inv hn) (c := ctxL) rfl rfl (by decide) (by decide)
    (x := contentL) rfl (by rw [hl]; decide) (by decide) (by decide) (by decide) (by decide) (by simp [SmallCommits, oldCommits, ctxL]) (.inl rfl)
    (fun _ => .inl (by simp [ctxL, oldKeys, total]))
  obtain ⟨s0, h0, hst⟩ := hw
  have hst1 := Steps.tail _ _ _ hst (.commit _ 0 ctxL calm 5 rfl q2)
  have hinv := (show Reachable (sampleCfg S 10000) (sampleUsage l) _ from ⟨s0, h0, hst1⟩).inv hn
  simp only at hst1 hinv hu hs ha hd hi
  generalize hC : commit (sampleCfg S 10000) calm 5 (fs0.create ['a']) [(0, ctxL)] 0 = C at *
  have hget : C.app.get 0 = some { ctxL with conn := ⟨j, 0, true⟩, reference := some r, dataOffset := (refData r).length } := by
    rw [ha, get_set_self]
  have hc : CtxOK (sampleCfg S 10000) (sampleUsage l) C.fs _ := hinv.ctxs _ (get_mem hget)
  have hlen := refData_length_le (hc.holds.1).wf.keys hs
  have hk := hu.keys
  have hm := hu.commits
  have e1 : oldKeys ctxL.reference = [] := rfl
  have e2 : oldCommits ctxL.reference = [] := rfl
  rw [e1] at hk
  rw [e2] at hm
  simp only [List.nil_append, ctxL, keysFrom] at hk hm
  refine ⟨⟨C.fs, (C.app.set 0 { ctxL with conn := ⟨j, 0, true⟩, reference := some r, dataOffset := (refData r).length, contentList := [] }).set 0
      { ctxL with conn := ⟨j, 0, true⟩, reference := some r, dataOffset := (refData r).length, contentList := [contentY] }⟩,
    { ctxL with conn := ⟨j, 0, true⟩, reference := some r, dataOffset := (refData r).length, contentList := [contentY] }, r, _,
    ⟨⟨s0, h0, .tail _ ⟨C.fs, C.app.set 0 { ctxL with conn := ⟨j, 0, true⟩, reference := some r, dataOffset := (refData r).length, contentList := [] }⟩ _
      (.tail _ _ _ hst1 (.cancel _ 0 _ ?_)) (.write _ 0 contentY.hash contentY.data 4 _ (by simp [contentY]) (by decide) ?_)⟩,
      get_set_self _ _ _, rfl, rfl, rfl, rfl, rfl, ?_, hk, rfl, ?_, by rw [hm]; rfl, hs, hd, ?_⟩⟩
  · unfold cancel; rw [hget]
  · unfold write; rw [get_set_self]; rfl
  · rw [hi]
    simp [newFile, carried, ctxL]
  · rw [hl]
    rfl
  · rw [hk, hm] at hlen
    simp only [List.length_cons, List.length_nil] at hlen
    omega

/-- The second commit. -/
theorem LongReady.commit {S : Sha} {l : Prop} {s : State} {c : Ctx} {r0 : Reference} {key : ContentKey} (h : LongReady S l s c r0 key) :
    (DB.commit (sampleCfg S 10000) calm 9 s.fs s.app 0).out = .ok () ∧
    CommitFits (sampleCfg S 10000) (sampleUsage l) calm 9 s.fs s.app 0 c ∧
    ∃ r j, (refData r0).length + 152 ≤ (refData r).length ∧ (refData r).length ≤ 914 ∧
      (DB.commit (sampleCfg S 10000) calm 9 s.fs s.app 0).app =
        s.app.set 0 { c with conn := ⟨j, 0, true⟩, reference := some r, dataOffset := (refData r).length } ∧
      (DB.commit (sampleCfg S 10000) calm 9 s.fs s.app 0).fs.dir ['a'] = some j ∧
      (DB.commit (sampleCfg S 10000) calm 9 s.fs s.app 0).fs.ino j = refData r ++ (contentL.data ++ contentY.data) := by
  have hn := sampleNames S 10000 l
  have hinv := h.reachable.inv hn
  have hc : CtxOK (sampleCfg S 10000) (sampleUsage l) s.fs c := hinv.ctxs _ (get_mem h.get)
  have hl := contentL_length
  have hle := h.le
  have hk : oldKeys c.reference = [key] := by rw [h.reference]; exact h.keys
  have hm : oldCommits c.reference = r0.commits.list := by rw [h.reference]; rfl
  have ht : total (oldKeys c.reference) = 4001 := by rw [hk]; simp [total, h.content]
  have hf : (s.fs.ino c.conn.ino).length = (refData r0).length + 4001 := by rw [h.file, List.length_append, hl]
  obtain ⟨q1, q2, t, r, j, q3, q4, q5, q6, q7, _⟩ := small_commit (now := 9) hn hinv h.get h.isOpen (by decide) (by decide) h.pending
    (by decide) (by rw [hf]; omega) (by rw [ht]; decide) (by rw [hk]; simp) (by rw [hm, h.commits]; decide)
    (by rw [hm]; exact h.small)
    (.inr ⟨by simp [sampleCfg], by rw [hf, h.offset]; omega, by rw [hf]; omega⟩) (fun _ => .inl (by rw [ht]; simp [sampleCfg]))
  have hgrow := refData_grows hc h.reference q3 q2.data (by rw [h.pending]; simp)
  have hne : c.contentList ≠ [] := by rw [h.pending]; simp
  refine ⟨q1, q2, r, j, hgrow, ?_, q5, by rw [h.name] at q6; exact q6, ?_⟩
  · have hget := get_set_self s.app 0 { c with conn := ⟨j, 0, true⟩, reference := some r, dataOffset := (refData r).length }
    rw [← q5] at hget
    obtain ⟨s0, h0, hst⟩ := h.reachable
    have hinv2 := (show Reachable (sampleCfg S 10000) (sampleUsage l) _ from
      ⟨s0, h0, .tail _ _ _ hst (.commit s 0 c calm 9 h.get q2)⟩).inv hn
    have hc2 : CtxOK (sampleCfg S 10000) (sampleUsage l) _ _ := hinv2.ctxs _ (get_mem hget)
    have hlen := refData_length_le (hc2.holds.1).wf.keys q4
    rw [q3.keys, q3.commits, hk, hm, List.length_append, List.length_append, h.commits, keysFrom_length, h.pending] at hlen
    simp only [List.length_cons, List.length_nil] at hlen
    omega
  · rw [q7, newFile, carried, h.reference, h.file, h.offset, h.pending]
    simp only [List.drop_left]
    rw [kept_eq _ _ (.inl (by rw [hl]; simp [sampleCfg]))]
    simp

/-- The bytes found too far to the front. -/
theorem shifted_ne {F d : Bytes} {R : Nat} (f : Bytes) (hF : F = f ++ (contentL.data ++ d)) (h1 : R < f.length)
    (h2 : f.length - R ≤ 4000) : (F.drop R).take 4001 ≠ contentL.data := by
  intro h
  have h := congrArg (fun x => x[f.length - R]?) h
  simp only [List.getElem?_take, List.getElem?_drop] at h
  rw [if_pos (by omega), show R + (f.length - R) = f.length from by omega, hF, List.getElem?_append_right (Nat.le_refl _), Nat.sub_self] at h
  have e : contentL.data = 1 :: List.replicate 4000 0 := rfl
  obtain ⟨m, hm⟩ : ∃ m, f.length - R = m + 1 := ⟨f.length - R - 1, by omega⟩
  rw [hm, e, List.getElem?_cons_succ, List.cons_append, List.getElem?_cons_zero, List.getElem?_replicate, if_pos (by omega)] at h
  cases h

/-- Reading a pointer at the beginning of what comes behind the reference. -/
theorem read_front {fs : FS} {a : App} {n : Name} {j : Nat} {r : Option Reference} {off len : Nat} {l : List Content} {d : Bytes}
    (ha : a.get 0 = some ⟨n, ⟨j, 0, true⟩, r, off, l⟩) (hoff : off < 2 ^ 32) (hlen : len < 2 ^ 32)
    (hin : off + len ≤ (fs.ino j).length) (hd : ((fs.ino j).drop off).take len = d) : DB.read fs a 0 ⟨0, len⟩ = .ok d := by
  unfold DB.read connRead
  rw [ha]
  simp only
  rw [if_neg (by omega), if_neg (by simp), Nat.mod_eq_of_lt (by omega), if_neg (by omega), readAt_ok _ _ _ (by omega), Nat.add_zero, hd]

end DB
end Rodkina
