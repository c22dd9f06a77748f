import Verif.Paths
import Verif.DatabaseProps3
/-! Property theorems for the file database, C143 and C144: what can be read, and which files names stand for. -/

namespace Rodkina
namespace Props

open Ref DB

/-! ### C143 -/

/-- C143, exactly: the pointers an open context reads, and the bytes it gives for them: those of its data, or, for positions so large
that they come round to the front of the file, those of the file. Everything else gives no bytes. -/
theorem C143_exact_partial (cfg : Cfg) (u : Usage) (hn : Names cfg u) (s : State) (hs : Reachable cfg u s) (id : Nat) (c : Ctx)
    (hg : s.app.get id = some c) (hopen : c.conn.isOpen = true) (p : Pointer) (hp : 0 < p.length) (h1 : p.from' < 2 ^ 64) (b : Bytes) :
    DB.read s.fs s.app id p = .ok b ↔
      (p.from' + p.length ≤ (dataOf s.fs c).length ∧ b = ((dataOf s.fs c).drop p.from').take p.length) ∨
      (∃ i, c.dataOffset + p.from' = 2 ^ 64 + i ∧ i + p.length ≤ (s.fs.ino c.conn.ino).length ∧
        b = ((s.fs.ino c.conn.ino).drop i).take p.length) := by
  have hc : CtxOK cfg u s.fs c := (hs.inv hn).ctxs _ (get_mem hg)
  have hb : c.dataOffset ≤ (s.fs.ino c.conn.ino).length ∧ (s.fs.ino c.conn.ino).length < 2 ^ 63 := by
    by_cases hr : c.reference = none
    · have hh := hc.holds
      rw [hr] at hh
      obtain ⟨e1, e2⟩ := hh
      rw [e1, e2]
      simp
    · exact hc.holds.bounds hr
  obtain ⟨hb1, hb2⟩ := hb
  unfold DB.read connRead dataOf
  rw [hg]
  simp only [List.length_drop, List.drop_drop]
  generalize s.fs.ino c.conn.ino = f at *
  generalize c.dataOffset = off at *
  by_cases hw : off + p.from' < 2 ^ 64
  · rw [Nat.mod_eq_of_lt hw]
    have hno : ∀ i, off + p.from' ≠ 2 ^ 64 + i := fun i e => by omega
    have hno' : ¬ ∃ i, off + p.from' = 2 ^ 64 + i ∧ i + p.length ≤ f.length ∧ b = (f.drop i).take p.length := by
      rintro ⟨i, e, _⟩; exact hno i e
    rw [or_iff_left hno']
    by_cases hl : 2 ^ 63 ≤ p.length
    · rw [if_pos hl]
      simp only [reduceCtorEq, false_iff, not_and]
      intro h; omega
    · rw [if_neg hl, hopen, if_neg (by simp)]
      by_cases ho : 2 ^ 63 ≤ off + p.from'
      · rw [if_pos ho]
        simp only [reduceCtorEq, false_iff, not_and]
        intro h; omega
      · rw [if_neg ho]
        unfold readAt
        rw [if_neg (by omega)]
        by_cases hin : off + p.from' + p.length ≤ f.length
        · rw [if_pos hin]
          constructor
          · intro h; cases h; exact ⟨by omega, rfl⟩
          · rintro ⟨_, rfl⟩; rfl
        · rw [if_neg hin]
          simp only [reduceCtorEq, false_iff, not_and]
          intro h; omega
  · have hm : (off + p.from') % 2 ^ 64 = off + p.from' - 2 ^ 64 := by
      rw [Nat.mod_eq_sub_mod (by omega), Nat.mod_eq_of_lt (by omega)]
    rw [hm]
    have hno' : ¬ (p.from' + p.length ≤ f.length - off ∧ b = (f.drop (off + p.from')).take p.length) := by
      rintro ⟨h, _⟩; omega
    rw [or_iff_right hno']
    obtain ⟨i, hi⟩ : ∃ i, off + p.from' = 2 ^ 64 + i := ⟨off + p.from' - 2 ^ 64, by omega⟩
    rw [hi, Nat.add_sub_cancel_left]
    have hex : (∃ i', 2 ^ 64 + i = 2 ^ 64 + i' ∧ i' + p.length ≤ f.length ∧ b = (f.drop i').take p.length) ↔
        i + p.length ≤ f.length ∧ b = (f.drop i).take p.length := by
      constructor
      · rintro ⟨i', e, h⟩
        have : i = i' := Nat.add_left_cancel e
        subst this
        exact h
      · intro h; exact ⟨i, rfl, h⟩
    rw [hex]
    by_cases hl : 2 ^ 63 ≤ p.length
    · rw [if_pos hl]
      simp only [reduceCtorEq, false_iff, not_and]
      intro h; omega
    · rw [if_neg hl, hopen, if_neg (by simp)]
      have hi2 : ¬ 2 ^ 63 ≤ i := by omega
      rw [if_neg hi2]
      unfold readAt
      rw [if_neg (by omega)]
      by_cases hin : i + p.length ≤ f.length
      · rw [if_pos hin]
        constructor
        · intro h; cases h; exact ⟨hin, rfl⟩
        · rintro ⟨_, rfl⟩; rfl
      · rw [if_neg hin]
        simp only [reduceCtorEq, false_iff, not_and]
        intro h; omega

/-- C143, what does hold: a pointer whose end is a position in a file (below 2^63) is read exactly if it lies in the stored data, and then
gives the bytes there, neither fewer nor others. Missing from the full claim: larger pointers (`C143_negation`). -/
theorem C143_reads_stored_bytes_partial (cfg : Cfg) (u : Usage) (hn : Names cfg u) (s : State) (hs : Reachable cfg u s) (id : Nat)
    (c : Ctx) (hg : s.app.get id = some c) (hopen : c.conn.isOpen = true) (p : Pointer) (hp : 0 < p.length)
    (h1 : p.from' + p.length < 2 ^ 63) (b : Bytes) :
    DB.read s.fs s.app id p = .ok b ↔
      p.from' + p.length ≤ (dataOf s.fs c).length ∧ b = ((dataOf s.fs c).drop p.from').take p.length := by
  rw [C143_exact_partial cfg u hn s hs id c hg hopen p hp (by omega)]
  have hc : CtxOK cfg u s.fs c := (hs.inv hn).ctxs _ (get_mem hg)
  have hb : c.dataOffset < 2 ^ 63 := by
    by_cases hr : c.reference = none
    · have hh := hc.holds
      rw [hr] at hh
      rw [hh.2]
      decide
    · have := hc.holds.bounds hr; omega
  apply or_iff_left
  rintro ⟨i, e, _⟩
  omega

/-- The hypotheses hold for a database with one commit of five bytes; its middle three bytes are read. -/
example (S : Sha) : ∃ cfg u s c, cfg.S = S ∧ Names cfg u ∧ Reachable cfg u s ∧ s.app.get 0 = some c ∧ c.conn.isOpen = true ∧
    DB.read s.fs s.app 0 ⟨1, 3⟩ = .ok [2, 3, 4] := by
  obtain ⟨s, c, h⟩ := sample_ready S 10 True
  refine ⟨_, _, s, c, rfl, sampleNames S 10 True, h.reachable, h.get, h.isOpen, ?_⟩
  rw [C143_reads_stored_bytes_partial _ _ (sampleNames S 10 True) s h.reachable 0 c h.get h.isOpen _ (by decide) (by decide), h.data]
  exact ⟨by decide, rfl⟩

/-- **C143 is false of the code**: in every open database that has a commit there is a pointer that lies behind all data and that is
read: it gives the first eight bytes of the file, which are the length of the reference. -/
theorem C143_negation (cfg : Cfg) (u : Usage) (hn : Names cfg u) (s : State) (hs : Reachable cfg u s) (id : Nat)
    (c : Ctx) (hg : s.app.get id = some c) (hopen : c.conn.isOpen = true) (hr : c.reference ≠ none) :
    ∃ p : Pointer, 0 < p.length ∧ p.from' < 2 ^ 64 ∧ (dataOf s.fs c).length ≤ p.from' ∧
      DB.read s.fs s.app id p = .ok ((s.fs.ino c.conn.ino).take 8) := by
  have hc : CtxOK cfg u s.fs c := (hs.inv hn).ctxs _ (get_mem hg)
  have hb := hc.holds.bounds hr
  have h8 : 8 ≤ c.dataOffset := by
    cases hr' : c.reference with
    | none => exact absurd hr' hr
    | some r =>
      have hh := hc.holds
      rw [hr'] at hh
      rw [hh.2.1, refData_length]
      omega
  have hlen : (dataOf s.fs c).length = (s.fs.ino c.conn.ino).length - c.dataOffset := by simp [dataOf]
  refine ⟨⟨2 ^ 64 - c.dataOffset, 8⟩, Nat.succ_pos 7, by simp only; omega, by simp only; omega, ?_⟩
  rw [C143_exact_partial cfg u hn s hs id c hg hopen _ (Nat.succ_pos 7) (by simp only; omega)]
  exact .inr ⟨0, by simp only; omega, by simp only; omega, rfl⟩

example (S : Sha) : ∃ cfg u s c, cfg.S = S ∧ Names cfg u ∧ Reachable cfg u s ∧ s.app.get 0 = some c ∧ c.conn.isOpen = true ∧
    c.reference ≠ none := by
  obtain ⟨s, c, h⟩ := sample_ready S 10 True
  exact ⟨_, _, s, c, rfl, sampleNames S 10 True, h.reachable, h.get, h.isOpen, h.reference⟩

/-! ### C144 -/

/-- C144, what does hold: names of one part stand for different files, all directly in the directory. Missing from the full claim: all
other names. -/
theorem C144_plain_names_partial (dir : Name) :
    ∃ pre : Name, (pre = [] ∨ pre.getLast? = some '/') ∧ (∀ n, PlainName n → joinPath dir n = pre ++ n) ∧
      ∀ n m, PlainName n → PlainName m → joinPath dir n = joinPath dir m → n = m := by
  refine ⟨dirPrefix dir, ?_, fun n h => joinPath_plain dir h, fun n m h1 h2 e => ?_⟩
  · unfold dirPrefix
    by_cases h1 : dirParts dir = []
    · by_cases h2 : dir.head? = some '/' <;> simp [h1, h2]
    · right
      simp [h1]
  · rw [joinPath_plain dir h1, joinPath_plain dir h2] at e
    exact List.append_cancel_left e

example : joinPath "./test_files/".toList "my_name".toList = "test_files/my_name".toList ∧ PlainName "my_name".toList ∧
    joinPath "/var/db".toList "x.y".toList = "/var/db/x.y".toList ∧ PlainName "x.y".toList := by
  refine ⟨by decide, ?_, by decide, ?_⟩ <;> simp [PlainName]

/-- C144: with names of one part, none of them another one with an extension, the files of the databases are apart, so that all that is
proved of databases on different files (`Names`) is true of databases with such names. -/
theorem C144_names_partial (S : Sha) (mv : UInt8) (dir dst bck : Name) (chunk : Nat) (spare : Bytes → Bytes) (u : Usage)
    (hplain : ∀ n, u.names n → PlainName n) (hdst : '/' ∉ dst) (hbck : '/' ∉ bck) (hne : dst ≠ bck)
    (hext : ∀ n m, u.names n → u.names m → n ≠ m ++ '.' :: dst ∧ n ≠ m ++ '.' :: bck) :
    Names ⟨S, mv, joinPath dir, dst, bck, chunk, spare⟩ u := by
  obtain ⟨_, _, _, hinj⟩ := C144_plain_names_partial dir
  refine ⟨fun n m hn hm => hinj n m (hplain n hn) (hplain m hm), fun n m hn hm e => ?_, fun n m hn hm e => ?_, fun n hn e => ?_⟩
  · exact (hext n m hn hm).1 (hinj _ _ (hplain n hn) ((hplain m hm).ext hdst) e)
  · exact (hext n m hn hm).2 (hinj _ _ (hplain n hn) ((hplain m hm).ext hbck) e)
  · have := hinj _ _ ((hplain n hn).ext hdst) ((hplain n hn).ext hbck) e
    have := List.append_cancel_left this
    exact hne (List.tail_eq_of_cons_eq this)

example : ∃ u : Usage, u.names "first".toList ∧ u.names "second".toList ∧ (∀ n, u.names n → PlainName n) ∧
    ∀ n m, u.names n → u.names m → n ≠ m ++ '.' :: "dst".toList ∧ n ≠ m ++ '.' :: "bck".toList := by
  refine ⟨⟨fun n => n = "first".toList ∨ n = "second".toList, True, True⟩, .inl rfl, .inr rfl, ?_, ?_⟩
  · rintro n (rfl | rfl) <;> simp [PlainName]
  · rintro n m (rfl | rfl) _ <;>
      · constructor <;>
          · intro e
            have := congrArg (fun l => decide ('.' ∈ l)) e
            simp at this

/-- **C144 is false of the code**: whatever the directory, a name has a second spelling that stands for the same file, also with
extensions; and in a directory below another one, a name leads out of it, to the files of the other. -/
theorem C144_negation (dir n : Name) (h : PlainName n) :
    (∃ n', n' ≠ n ∧ joinPath dir n' = joinPath dir n ∧
      ∀ e, '/' ∉ e → joinPath dir (n' ++ '.' :: e) = joinPath dir (n ++ '.' :: e)) ∧
    ∀ base sub, PlainName sub → base ≠ [] → dir = base ++ '/' :: sub → joinPath dir ("../".toList ++ n) = joinPath base n := by
  have key : ∀ m, PlainName m → joinPath dir ("./".toList ++ m) = joinPath dir m := by
    intro m hm
    rw [show "./".toList ++ m = ['.'] ++ '/' :: m from rfl, joinPath_parts dir ['.'] hm (by decide) (by decide), joinPath_plain dir hm]
    have : (pathParts ['.']).foldl (pathPush (decide (dir.head? = some '/'))) (dirParts dir) = dirParts dir := by
      rw [pathParts_plain (by decide)]
      simp [pathPush]
    simp only [this]
    unfold dirPrefix
    simp
  refine ⟨⟨"./".toList ++ n, ?_, key n h, fun e he => ?_⟩, ?_⟩
  · intro e
    have := congrArg List.length e
    simp at this
    omega
  · rw [List.append_assoc]
    exact key _ (h.ext he)
  · rintro base sub hsub hbase rfl
    rw [show "../".toList ++ n = ['.', '.'] ++ '/' :: n from rfl, joinPath_parts _ ['.', '.'] h (by decide) (by decide),
      joinPath_plain base h]
    have hh : (base ++ '/' :: sub).head? = base.head? := by
      cases base with
      | nil => exact absurd rfl hbase
      | cons c cs => rfl
    have hd : dirParts (base ++ '/' :: sub) = sub :: dirParts base := by
      unfold dirParts
      rw [if_neg (by simp), if_neg hbase, hh, pathParts_append, pathParts_plain hsub.2.1]
      simp [List.foldl_append, pathPush_plain hsub]
    have : (pathParts ['.', '.']).foldl (pathPush (decide ((base ++ '/' :: sub).head? = some '/'))) (dirParts (base ++ '/' :: sub)) =
        dirParts base := by
      rw [pathParts_plain (by decide), hd]
      simp [pathPush, hsub.2.2.2]
    simp only [this]
    unfold dirPrefix
    simp [hh]

example : joinPath "test/db".toList "../secret".toList = "test/secret".toList ∧
    joinPath "test/db".toList "./a".toList = joinPath "test/db".toList "a".toList := by decide

/-- **C144, what goes wrong**: while a database is open, a second spelling of its name opens it a second time (although a second Open of
the same name is refused); and when contents are written under both spellings and both commit, the second commit succeeds and the
database then has no trace of the first one, whatever its outcome: it lists the contents from before, and the one of the second. -/
theorem C144_two_spellings (cfg : Cfg) (u : Usage) (hn : Names cfg u) (ht : u.tidy) (hchunk : 0 < cfg.readChunkSize) (s : State)
    (hs : Reachable cfg u s) (id : Nat) (c : Ctx) (hg : s.app.get id = some c) (hopen : c.conn.isOpen = true) (hid : id ≠ s.app.length)
    (n' : Name) (hnew : ∀ e ∈ s.app, e.2.name ≠ n') (hpath : cfg.path n' = cfg.path c.name) (hdst : cfg.dst n' = cfg.dst c.name)
    (hbck : cfg.bck n' = cfg.bck c.name) (y : Content) (hy : y.WF) (hyd : y.data ≠ []) :
    ∃ a1 a2, open' cfg s.fs s.app n' = .ok (s.app.length, a1) ∧ write a1 s.app.length y.hash y.data y.kind = .ok a2 ∧
      a2.get id = some c ∧
      ∀ (o : Pt → Fault) (now now' : Int) (A B : Committed), A = commit cfg o now s.fs a2 id → B = commit cfg calm now' A.fs A.app s.app.length →
        CopyEnds cfg c (s.fs.ino c.conn.ino) → total (oldKeys c.reference) + y.data.length < 2 ^ 63 →
        -2 ^ 63 ≤ now' → now' < 2 ^ 63 → 
        (∀ r, updateReference cfg { c with contentList := [y] } now' = .ok r → (refData r).length < 2 ^ 63) →
        B.out = .ok () ∧ ∃ r off, retrieveAt cfg B.fs (cfg.path c.name) = .ok (some r, off) ∧
          r.commits.list.length = (oldCommits c.reference).length + 1 ∧
          r.contentKeys.list.map (·.hash) = (oldKeys c.reference).map (·.hash) ++ [y.hash] := by
  have hinv := hs.inv hn
  have hc : CtxOK cfg u s.fs c := hinv.ctxs _ (get_mem hg)
  have hlink := hc.linked ht hopen
  let c1 : Ctx := ⟨n', ⟨c.conn.ino, 0, true⟩, c.reference, c.dataOffset, []⟩
  let c2 : Ctx := { c1 with contentList := [y] }
  have hret : retrieveAt cfg s.fs (cfg.path n') = .ok (c.reference, c.dataOffset) := by
    unfold retrieveAt FS.file
    rw [hpath, hlink]
    exact hc.holds.retrieve hchunk
  have hop : open' cfg s.fs s.app n' = .ok (s.app.length, s.app.set s.app.length c1) := by
    unfold open'
    rw [if_neg (by
      rw [List.any_eq_true]
      rintro ⟨e, he, h⟩
      exact hnew e he (by simpa using h)), hret, hpath, hlink]
    rfl
  have hwr : write (s.app.set s.app.length c1) s.app.length y.hash y.data y.kind =
      .ok ((s.app.set s.app.length c1).set s.app.length c2) := by
    unfold write
    rw [get_set_self]
    rw [show contentNow y.hash y.data y.kind = .ok y by
      unfold contentNow
      rw [if_neg (by simpa using hyd)]]
    rfl
  have hg2 : ((s.app.set s.app.length c1).set s.app.length c2).get id = some c := by
    rw [get_set_ne _ _ hid, get_set_ne _ _ hid, hg]
  refine ⟨_, _, hop, hwr, hg2, ?_⟩
  rintro o now now' A B rfl rfl hends hfit hlo hhi hfile
  generalize ha2 : (s.app.set s.app.length c1).set s.app.length c2 = a2 at *
  have hgk : a2.get s.app.length = some c2 := by rw [← ha2]; exact get_set_self _ _ _
  have hdist := hn.distinct hc.name
  have hdist2 : cfg.Distinct c2.name := by
    show cfg.path n' ≠ cfg.dst n' ∧ cfg.path n' ≠ cfg.bck n' ∧ cfg.dst n' ≠ cfg.bck n'
    rw [hpath, hdst, hbck]
    exact hdist
  have hd0 : s.fs.dir (cfg.dst c.name) ≠ some c.conn.ino := fun h => hdist.1 (hc.only _ h).symm
  have hb0 : s.fs.dir (cfg.bck c.name) ≠ some c.conn.ino := fun h => hdist.2.1 (hc.only _ h).symm
  -- the first commit leaves the old file, to which the second context still points, as it was
  have hA : (commit cfg o now s.fs a2 id).app.get s.app.length = some c2 ∧ FsGood (commit cfg o now s.fs a2 id).fs ∧
      c.conn.ino < (commit cfg o now s.fs a2 id).fs.next ∧
      (commit cfg o now s.fs a2 id).fs.dir (cfg.dst c.name) ≠ some c.conn.ino ∧
      (commit cfg o now s.fs a2 id).fs.ino c.conn.ino = s.fs.ino c.conn.ino := by
    rcases commit_cases cfg o now s.fs a2 id c hg2 with ⟨h1, h2, _⟩ | ⟨r, hr, he⟩
    · rw [h1, h2]
      exact ⟨hgk, hinv.good, hc.lt, hd0, rfl⟩
    · have htouch := (updateDatabase_any cfg o c r s.fs hinv.good hdist hc.lt hd0).1
      obtain ⟨f1, f2⟩ := finish_eq s.fs a2 id c r ((updateDatabaseOnFile cfg o c r).run ⟨s.fs, c.conn⟩)
      rw [he, f1, f2]
      refine ⟨by rw [get_set_ne _ _ (Ne.symm hid)]; exact hgk, htouch.good hinv.good, Nat.lt_of_lt_of_le hc.lt htouch.next, ?_, ?_⟩
      · intro hh
        rcases htouch.src _ (.inl rfl) _ hh with ⟨q, hq, hq2⟩ | hge
        · rcases hq with rfl | rfl
          · exact hd0 hq2
          · exact hb0 hq2
        · exact absurd hc.lt (by omega)
      · apply htouch.ino _ hc.lt
        rintro q (rfl | rfl)
        · exact hd0
        · exact hb0
  generalize commit cfg o now s.fs a2 id = A at *
  obtain ⟨hAk, hAgood, hAlt, hAdst, hAino⟩ := hA
  have hpend : ∀ x ∈ c2.contentList, x.WF := by
    intro x hx
    rw [show c2.contentList = [y] from rfl, List.mem_singleton] at hx
    subst hx
    exact hy
  have hdata : total (oldKeys c2.reference) + (allData c2.contentList).length < 2 ^ 63 := by
    have : allData c2.contentList = y.data := by simp [allData, c2]
    rw [this]
    exact hfit
  obtain ⟨t, r, hr, hu⟩ := updateReference_ok cfg c2 now' (by simp [c2]) hpend hc.holds.ref hdata
  obtain ⟨w', j, he, E⟩ := updateDatabase_calm cfg c2 r A.fs hAgood hdist2 rfl hAlt
    (by show A.fs.dir (cfg.dst n') ≠ _; rw [hdst]; exact hAdst)
    (by rw [show c2.conn.ino = c.conn.ino from rfl, hAino]; exact hends)
  have hcom : commit cfg calm now' A.fs A.app s.app.length =
      finish A.fs A.app s.app.length c2 r (.ok (⟨j, 0, true⟩, (refData r).length), w') := by
    unfold commit
    rw [hAk]
    simp only [hr, he]
  rw [hcom]
  have hdir : (finish A.fs A.app s.app.length c2 r (.ok (⟨j, 0, true⟩, (refData r).length), w')).fs.dir (cfg.path c.name) = some j := by
    rw [← hpath]
    exact E.dir
  have hino : (finish A.fs A.app s.app.length c2 r (.ok (⟨j, 0, true⟩, (refData r).length), w')).fs.ino j =
      newFile cfg c2 r (A.fs.ino c2.conn.ino) := E.content
  have hsize := hfile r hr
  rw [refData_length] at hsize
  have hok := hu.refOK hpend hc.holds.ref hlo hhi hdata (by omega)
  refine ⟨rfl, r, (refData r).length, ?_, ?_, ?_⟩
  · unfold retrieveAt FS.file
    rw [hdir]
    simp only [Option.map_some]
    rw [hino]
    exact retrieveReference_refData _ hchunk _ hok.wf _
  · rw [hu.commits]; simp [c2, c1]
  · rw [hu.keys]
    simp [c2, c1, keysFrom]

/-- The hypotheses hold for the names "a" and "./a" of a new database in the directory "db". -/
example (S : Sha) : ∃ cfg u s c, cfg.S = S ∧ cfg.path = joinPath "db".toList ∧ Names cfg u ∧ u.tidy ∧ 0 < cfg.readChunkSize ∧
    Reachable cfg u s ∧ s.app.get 0 = some c ∧ c.conn.isOpen = true ∧ 0 ≠ s.app.length ∧ (∀ e ∈ s.app, e.2.name ≠ "./a".toList) ∧
    c.name = "a".toList ∧ cfg.path "./a".toList = cfg.path c.name ∧ cfg.dst "./a".toList = cfg.dst c.name ∧
    cfg.bck "./a".toList = cfg.bck c.name ∧ contentY.WF ∧ contentY.data ≠ [] ∧ CopyEnds cfg c (s.fs.ino c.conn.ino) ∧
    total (oldKeys c.reference) + contentY.data.length < 2 ^ 63 ∧
    ∀ r, updateReference cfg { c with contentList := [contentY] } 9 = .ok r → (refData r).length < 2 ^ 63 := by
  let cfg : Cfg := ⟨S, 0, joinPath "db".toList, "dst".toList, "bck".toList, 10, fun _ => []⟩
  let u : Usage := ⟨fun n => n = "a".toList, False, True⟩
  have hn : Names cfg u := by
    apply C144_names_partial
    · rintro n rfl; simp [PlainName]
    · decide
    · decide
    · decide
    · rintro n m rfl rfl; decide
  let s1 : State := ⟨fs0.create "db/a".toList, []⟩
  let c : Ctx := ⟨"a".toList, ⟨0, 0, true⟩, none, 0, []⟩
  let s2 : State := ⟨fs0.create "db/a".toList, [(0, c)]⟩
  let s3 : State := ⟨fs0.create "db/a".toList, [(0, { c with contentList := [contentY] })]⟩
  have hinit : Init cfg u ⟨fs0, []⟩ := ⟨rfl, ⟨by simp [fs0], by simp [fs0]⟩, fun n _ => rfl⟩
  have h1 : Step cfg u ⟨fs0, []⟩ s1 := .new _ "a".toList _ rfl rfl
  have h2 : Step cfg u s1 s2 := .open' _ "a".toList 0 _ rfl rfl
  have h3 : Step cfg u s2 s3 := .write s2 0 contentY.hash contentY.data 4 _ (by simp [contentY]) (by decide) rfl
  have hs2 : Reachable cfg u s2 := ⟨_, .fresh _ _ _ hinit, .tail _ _ _ (.tail _ _ _ (.refl _) h1) h2⟩
  have hs3 : Reachable cfg u s3 := ⟨_, .fresh _ _ _ hinit, .tail _ _ _ (.tail _ _ _ (.tail _ _ _ (.refl _) h1) h2) h3⟩
  have hc3 := (hs3.inv hn).ctxs (0, { c with contentList := [contentY] }) (by simp [s3])
  refine ⟨cfg, u, s2, c, rfl, rfl, hn, trivial, Nat.succ_pos 9, hs2, rfl, rfl, by decide, ?_, rfl,
    rfl, rfl, rfl,
    hc3.pending _ (by simp), by decide, .inl rfl, by decide, ?_⟩
  · intro e he
    simp only [s2, List.mem_singleton] at he
    subst he
    decide
  · intro r hr
    obtain ⟨_, _, t, r', j, _, _, _, _, _, hr3, hsize⟩ := small_commit (id := 0) (c := { c with contentList := [contentY] }) (now := 9)
      (x := contentY) hn (hs3.inv hn) rfl rfl (by decide) (by decide) rfl (by decide) (by decide) (by decide) (by decide) (by decide)
      (by intro x hx; cases hx) (.inl rfl) (fun h => h.elim)
    rw [hr] at hr3
    injection hr3 with hr3
    subst hr3
    unfold newFile at hsize
    rw [List.length_append] at hsize
    omega

end Props
end Rodkina
