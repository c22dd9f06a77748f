import Verif.OpenRace
import Verif.DatabaseProps2
import Verif.SnapshotOps
/-! Lemmas for C129. -/

namespace Rodkina
namespace DB

open Ref

/-- When nobody acts during the call, this is `Open`. -/
theorem openAt_alone (cfg : Cfg) (fs : FS) (a : App) (n : Name) : openAt cfg fs fs fs a n = open' cfg fs a n := by
  unfold openAt open' retrieveAt FS.file
  split
  · rfl
  · cases fs.dir (cfg.path n) with
    | none => rfl
    | some i => rfl

/-- What a successful call made. -/
theorem openAt_ok {cfg : Cfg} {fs1 fs2 fs3 : FS} {a : App} {n : Name} {id : Nat} {a1 : App}
    (h : openAt cfg fs1 fs2 fs3 a n = .ok (id, a1)) : ∃ i j r, a.any (fun e => e.2.name == n) = false ∧
      fs1.dir (cfg.path n) = some i ∧ fs3.dir (cfg.path n) = some j ∧ retrieveReference cfg (fs2.ino i) = .ok r ∧
      id = a.length ∧ a1 = a.set a.length ⟨n, ⟨j, 0, true⟩, r.1, r.2, []⟩ := by
  unfold openAt at h
  split at h
  · cases h
  · rename_i hany
    cases e1 : fs1.dir (cfg.path n) with
    | none => rw [e1] at h; cases h
    | some i =>
      rw [e1] at h
      simp only [Res.bind_eq_ok] at h
      obtain ⟨r, hr, h⟩ := h
      cases e3 : fs3.dir (cfg.path n) with
      | none => rw [e3] at h; cases h
      | some j =>
        rw [e3] at h
        simp only [Res.pure_eq, Res.ok.injEq, Prod.mk.injEq] at h
        exact ⟨i, j, r, by simpa using hany, rfl, rfl, hr, h.1.symm, h.2.symm⟩

theorem openAt_eq {cfg : Cfg} {fs1 fs2 fs3 : FS} {a : App} {n : Name} {i j : Nat} {r : Option Reference × Nat}
    (ha : a.any (fun e => e.2.name == n) = false) (h1 : fs1.dir (cfg.path n) = some i) (h3 : fs3.dir (cfg.path n) = some j)
    (h2 : retrieveReference cfg (fs2.ino i) = .ok r) :
    openAt cfg fs1 fs2 fs3 a n = .ok (a.length, a.set a.length ⟨n, ⟨j, 0, true⟩, r.1, r.2, []⟩) := by
  unfold openAt
  rw [ha, h1]
  simp [h2, h3]

/-- Opening a file with the same bytes. -/
theorem open_same {cfg : Cfg} {fs fs' : FS} {a : App} {n : Name} {i : Nat} {r : Option Reference × Nat}
    (ha : a.any (fun e => e.2.name == n) = false) (hd : fs.dir (cfg.path n) = some i)
    (hr : retrieveReference cfg (fs.ino i) = .ok r) (hf : fs'.file (cfg.path n) = fs.file (cfg.path n)) :
    ∃ j, fs'.dir (cfg.path n) = some j ∧ fs'.ino j = fs.ino i ∧
      open' cfg fs' a n = .ok (a.length, a.set a.length ⟨n, ⟨j, 0, true⟩, r.1, r.2, []⟩) := by
  unfold FS.file at hf
  rw [hd] at hf
  cases hj : fs'.dir (cfg.path n) with
  | none => rw [hj] at hf; cases hf
  | some j =>
    rw [hj] at hf
    have hf : fs'.ino j = fs.ino i := by simpa using hf
    refine ⟨j, rfl, hf, ?_⟩
    rw [← openAt_alone]
    exact openAt_eq ha hj hj (by rw [hf]; exact hr)

/-- The file of an up to date context opens with its reference. -/
theorem retrieve_ctx {cfg : Cfg} {u : Usage} {fs : FS} {c : Ctx} (hc : CtxOK cfg u fs c) (hchunk : 0 < cfg.readChunkSize)
    {r0 : Reference} (hr : c.reference = some r0) :
    retrieveReference cfg (fs.ino c.conn.ino) = .ok (some r0, (refData r0).length) ∧ c.dataOffset = (refData r0).length := by
  have h := hc.holds
  rw [hr] at h
  obtain ⟨hok, hoff, _, d, hf, _⟩ := h
  rw [hf]
  exact ⟨retrieveReference_refData cfg hchunk r0 hok.wf d, hoff⟩

end DB
end Rodkina
