import Verif.Db.Handle
import Verif.Db.MetaProps

/-!
# Opening and closing (C94), databases opened read-only (C96)
-/

namespace Verif.Db

open Verif.Page

/-- Nothing is open through this handle. -/
structure Shut (h : Handle) : Prop where
  file : h.file = none
  map : h.map = none
  db : h.db = none

/-- One of the two meta pages has the right magic and version. -/
def Recognised (d : Disk) : Prop := ∃ n < 2, ule (d.page n) 0 4 = 0xDECAFBAD ∧ ule (d.page n) 4 4 = 1

/-- A handle that gives access to the database on the disk: the live meta page is the newest valid one, nobody writes or reads. -/
structure Opened (fl : Flags) (d : Disk) (h : Handle) (env : Env) : Prop where
  file : h.file = some (!fl.rdonly)
  map : h.map = some (!fl.rdonly)
  db : h.db = some env
  pages : env.file = d.page
  len : env.filePages = pagesIn d.len
  size : env.mapPages = pagesIn h.mapsize
  free : env.locked = false
  noReaders : ∀ s ∈ env.readers, s.txnid = 0
  live : env.live < 2
  valid : validMeta env.liveMeta = true
  newest : ∀ j < 2, validMeta (d.page j) = true → metaTxnid (d.page j) ≤ metaTxnid env.liveMeta

/-- A new database: two meta pages, no tree. -/
def emptyDisk : Disk := ⟨8192, fun n => if n = 0 then metaPage 0 0 1 0 else if n = 1 then metaPage 1 0 1 0 else zeroPage⟩

theorem two_pages : pagesIn 8192 = 2 := rfl

theorem emptyDisk_recognised : Recognised emptyDisk := by
  refine ⟨0, by omega, ?_⟩
  have := metaPage_valid 0 0 1 0
  unfold validMeta at this
  have h : ule (metaPage 0 0 1 0) 0 4 = 0xDECAFBAD ∧ ule (metaPage 0 0 1 0) 4 4 = 1 := by simpa [dbMagic, dbVersion] using this
  exact h

theorem create_opened {mp : Nat} (h2 : 2 ≤ mp) : ∃ env, envCreate mp = .ok env ∧ env.file = emptyDisk.page ∧ env.filePages = 2 ∧ env.mapPages = mp ∧ env.locked = false ∧
    (∀ s ∈ env.readers, s.txnid = 0) ∧ env.live = 1 := by
  unfold envCreate
  rw [if_neg (by omega)]
  refine ⟨_, rfl, rfl, rfl, rfl, rfl, ?_, rfl⟩
  intro s hs
  rw [List.eq_of_mem_replicate hs]; rfl

theorem empty_newest : ∀ j < 2, validMeta (emptyDisk.page j) = true → metaTxnid (emptyDisk.page j) ≤ metaTxnid (emptyDisk.page 1) := by
  intro j hj _
  rcases (by omega : j = 0 ∨ j = 1) with rfl | rfl
  · show metaTxnid (metaPage 0 0 1 0) ≤ metaTxnid (metaPage 1 0 1 0)
    rw [metaPage_txnid, metaPage_txnid]; omega
  · exact Nat.le_refl _

/-- C94: an opening that returns leaves either a usable database and one descriptor and one mapping more, or nothing open; an existing file is never changed. -/
theorem open_all_or_nothing {fails : Call → Bool} {fl : Flags} {s s' : Sys} {h h' : Handle} {st : OpenSt} (hc : Shut h)
    (ho : openHandle fails fl s h = .ok (st, s', h')) :
    h'.mapsize = h.mapsize ∧
    ((st = .ok ∧ s'.fds = s.fds + 1 ∧ s'.maps = s.maps + 1 ∧ ∃ d env, s'.path = some d ∧ Opened fl d h' env ∧
        (s.path = some d ∨ (s.path = none ∧ fl.create = true ∧ fl.rdonly = false ∧ d = emptyDisk))) ∨
     (st ≠ .ok ∧ s'.fds = s.fds ∧ s'.maps = s.maps ∧ Shut h' ∧ (s'.path = s.path ∨ (s.path = none ∧ fl.create = true)))) := by
  obtain ⟨hc1, hc2, hc3⟩ := hc
  obtain ⟨path, fds, maps⟩ := s
  obtain ⟨msz, fileH, mapH, dbH⟩ := h
  simp only at hc1 hc2 hc3
  subst hc1; subst hc2; subst hc3
  unfold openHandle at ho
  simp only at ho
  split at ho
  · cases ho
    exact ⟨rfl, .inr ⟨by simp, rfl, rfl, ⟨rfl, rfl, rfl⟩, .inl rfl⟩⟩
  cases hstat : fails .stat with
  | true =>
    simp only [fileOpen, hstat, if_true] at ho
    cases ho
    exact ⟨rfl, .inr ⟨by simp, rfl, rfl, ⟨rfl, rfl, rfl⟩, .inl rfl⟩⟩
  | false =>
  cases path with
  | some d =>
    cases hopen : fails .open with
    | true =>
      simp [fileOpen, hstat, hopen] at ho
      obtain ⟨rfl, rfl, rfl⟩ := ho
      exact ⟨rfl, .inr ⟨by simp, rfl, rfl, ⟨rfl, rfl, rfl⟩, .inl rfl⟩⟩
    | false =>
    cases hmap : fails .map with
    | true =>
      simp [fileOpen, mapFile, dropFile, hstat, hopen, hmap] at ho
      obtain ⟨rfl, rfl, rfl⟩ := ho
      exact ⟨rfl, .inr ⟨by simp, rfl, rfl, ⟨rfl, rfl, rfl⟩, .inl rfl⟩⟩
    | false =>
    cases hadr : fails .mapAddr with
    | true =>
      simp [fileOpen, mapFile, dropFile, hstat, hopen, hmap, hadr] at ho
      obtain ⟨rfl, rfl, rfl⟩ := ho
      exact ⟨rfl, .inr ⟨by simp, rfl, rfl, ⟨rfl, rfl, rfl⟩, .inl rfl⟩⟩
    | false =>
    simp only [fileOpen, mapFile, hstat, hopen, hmap, hadr, initMeta, Bool.false_eq_true, if_false] at ho
    obtain ⟨r, h1, ho⟩ := Res.bind_eq_ok.1 ho
    obtain ⟨r', h2, h1⟩ := Res.bind_eq_ok.1 h1
    cases r' with
    | error e =>
      simp only at h1
      cases h1
      simp only at ho
      cases ho
      exact ⟨rfl, .inr ⟨by simp, rfl, rfl, ⟨rfl, rfl, rfl⟩, .inl rfl⟩⟩
    | ok env =>
      simp only at h1
      cases h1
      simp only at ho
      split at ho
      · cases ho
        exact ⟨rfl, .inr ⟨by simp, rfl, rfl, ⟨rfl, rfl, rfl⟩, .inl rfl⟩⟩
      split at ho
      · cases ho
        exact ⟨rfl, .inr ⟨by simp, rfl, rfl, ⟨rfl, rfl, rfl⟩, .inl rfl⟩⟩
      cases ho
      have hp : 2 ≤ pagesIn d.len ∧ 2 ≤ pagesIn msz := by
        unfold envOpen at h2
        split at h2
        · cases h2
        · omega
      have hv : ∃ n < 2, ule (d.page n) 0 4 = 0xDECAFBAD ∧ ule (d.page n) 4 4 = 1 := by
        by_cases hv : ∃ n < 2, ule (d.page n) 0 4 = 0xDECAFBAD ∧ ule (d.page n) 4 4 = 1
        · exact hv
        · rw [(open_fails_iff hp.1 hp.2).2 hv] at h2; cases h2
      obtain ⟨env', e1, e2, e3, e4, e5, e6, e7, e8, e9⟩ := open_selects hp.1 hp.2 hv
      rw [h2] at e1; cases e1
      exact ⟨rfl, .inl ⟨rfl, rfl, rfl, d, env, rfl, ⟨rfl, rfl, rfl, e2, e3, e4, e5, e6, e7, e8, e9⟩, .inl rfl⟩⟩
  | none =>
    cases hcr : fl.create with
    | false =>
      simp [fileOpen, hstat, hcr] at ho
      obtain ⟨rfl, rfl, rfl⟩ := ho
      exact ⟨rfl, .inr ⟨by simp, rfl, rfl, ⟨rfl, rfl, rfl⟩, .inl rfl⟩⟩
    | true =>
    cases hopen : fails .open with
    | true =>
      simp [fileOpen, hstat, hopen, hcr] at ho
      obtain ⟨rfl, rfl, rfl⟩ := ho
      exact ⟨rfl, .inr ⟨by simp, rfl, rfl, ⟨rfl, rfl, rfl⟩, .inl rfl⟩⟩
    | false =>
    cases htr : (fl.rdonly || fails .trunc) with
    | true =>
      simp [fileOpen, hstat, hopen, hcr, htr] at ho
      obtain ⟨rfl, rfl, rfl⟩ := ho
      exact ⟨rfl, .inr ⟨by simp, rfl, rfl, ⟨rfl, rfl, rfl⟩, .inr ⟨rfl, rfl⟩⟩⟩
    | false =>
    have hro : fl.rdonly = false := by
      cases h : fl.rdonly
      · rfl
      · rw [h] at htr; simp at htr
    cases hmap : fails .map with
    | true =>
      simp [fileOpen, mapFile, dropFile, hstat, hopen, hmap, hcr, htr] at ho
      obtain ⟨rfl, rfl, rfl⟩ := ho
      exact ⟨rfl, .inr ⟨by simp, rfl, rfl, ⟨rfl, rfl, rfl⟩, .inr ⟨rfl, rfl⟩⟩⟩
    | false =>
    cases hadr : fails .mapAddr with
    | true =>
      simp [fileOpen, mapFile, dropFile, hstat, hopen, hmap, hadr, hcr, htr] at ho
      obtain ⟨rfl, rfl, rfl⟩ := ho
      exact ⟨rfl, .inr ⟨by simp, rfl, rfl, ⟨rfl, rfl, rfl⟩, .inr ⟨rfl, rfl⟩⟩⟩
    | false =>
    simp only [fileOpen, mapFile, hstat, hopen, hmap, hadr, hcr, htr, initMeta, Bool.false_eq_true, if_false, Bool.not_true, if_true] at ho
    obtain ⟨r, h1, ho⟩ := Res.bind_eq_ok.1 ho
    obtain ⟨env, h2, h1⟩ := Res.bind_eq_ok.1 h1
    have hp : 2 ≤ pagesIn msz := by
      unfold envCreate at h2
      split at h2
      · cases h2
      · omega
    obtain ⟨env', e1, e2, e3, e4, e5, e6, e7⟩ := create_opened hp
    rw [h2] at e1; cases e1
    cases hs : fails .sync with
    | true =>
      simp only [hs, if_true] at h1
      cases h1
      simp only at ho
      cases ho
      exact ⟨rfl, .inr ⟨by simp, rfl, rfl, ⟨rfl, rfl, rfl⟩, .inr ⟨rfl, rfl⟩⟩⟩
    | false =>
    simp only [hs, Bool.false_eq_true, if_false] at h1
    cases h1
    simp only at ho
    split at ho
    · cases ho
      exact ⟨rfl, .inr ⟨by simp, rfl, rfl, ⟨rfl, rfl, rfl⟩, .inr ⟨rfl, rfl⟩⟩⟩
    split at ho
    · cases ho
      exact ⟨rfl, .inr ⟨by simp, rfl, rfl, ⟨rfl, rfl, rfl⟩, .inr ⟨rfl, rfl⟩⟩⟩
    cases ho
    have hlm : env.liveMeta = emptyDisk.page 1 := by unfold Env.liveMeta; rw [e2, e7]
    refine ⟨rfl, .inl ⟨rfl, rfl, rfl, emptyDisk, env, by rw [e2]; rfl, ⟨by rw [hro]; rfl, by rw [hro], rfl, e2, e3, e4, e5, e6, by omega, ?_, ?_⟩, .inr ⟨rfl, rfl, hro, rfl⟩⟩⟩
    · rw [hlm]; exact metaPage_valid _ _ _ _
    · rw [hlm]; exact empty_newest

/-- No call fails. -/
def calm : Call → Bool := fun _ => false

/-- C94: if no call fails, an existing file is opened exactly if it is recognised; a file shorter than two pages is not refused but read beyond its end. -/
theorem open_existing {fl : Flags} {s : Sys} {h : Handle} {d : Disk} (hm : 4096 < h.mapsize) (hp : s.path = some d) :
    (4096 < d.len → Recognised d → ∃ s' h', openHandle calm fl s h = .ok (.ok, s', h')) ∧
    (4096 < d.len → ¬ Recognised d → ∃ s' h', openHandle calm fl s h = .ok (.inval, s', h')) ∧
    (d.len ≤ 4096 → openHandle calm fl s h = .ub) := by
  have hm2 : 2 ≤ pagesIn h.mapsize := by unfold pagesIn; omega
  unfold openHandle
  rw [if_neg (by omega)]
  simp only [fileOpen, mapFile, calm, hp, initMeta, Bool.false_eq_true, if_false]
  refine ⟨fun hl hr => ?_, fun hl hr => ?_, fun hl => ?_⟩
  · have hd2 : 2 ≤ pagesIn d.len := by unfold pagesIn; omega
    obtain ⟨env, e, -⟩ := open_selects hd2 hm2 hr
    exact ⟨_, _, by rw [e]; rfl⟩
  · have hd2 : 2 ≤ pagesIn d.len := by unfold pagesIn; omega
    exact ⟨_, _, by rw [(open_fails_iff hd2 hm2).2 hr]; rfl⟩
  · have hd2 : pagesIn d.len < 2 := by unfold pagesIn; omega
    unfold envOpen
    rw [if_pos (.inr hd2)]
    rfl

/-- C94: if no call fails, a missing file is created exactly if `NAPR_DB_CREATE` is given without `NAPR_DB_RDONLY`. -/
theorem open_missing {fl : Flags} {s : Sys} {h : Handle} (hm : 4096 < h.mapsize) (hp : s.path = none) :
    (fl.create = true → fl.rdonly = false → ∃ s' h', openHandle calm fl s h = .ok (.ok, s', h') ∧ s'.path = some emptyDisk) ∧
    (fl.create = false → openHandle calm fl s h = .ok (.noent, s, h)) := by
  have hm2 : 2 ≤ pagesIn h.mapsize := by unfold pagesIn; omega
  unfold openHandle
  rw [if_neg (by omega)]
  refine ⟨fun hc hr => ?_, fun hc => ?_⟩
  · simp only [fileOpen, mapFile, calm, hp, initMeta, hc, hr, Bool.false_eq_true, if_false, Bool.not_true, Bool.or_false, if_true]
    obtain ⟨env, e, e2, -⟩ := create_opened hm2
    exact ⟨_, _, by rw [e]; rfl, by rw [e2]; rfl⟩
  · simp only [fileOpen, calm, hp, hc, Bool.false_eq_true, if_false, Bool.not_false, if_true]

/-- What is left at the path when a creation fails. -/
theorem failed_creation {fails : Call → Bool} {fl : Flags} {s s' : Sys} {h h' : Handle} {st : OpenSt} (hp : s.path = none)
    (ho : openHandle fails fl s h = .ok (st, s', h')) (hst : st ≠ .ok) :
    (s'.path = none ∧ (st = .inval ∨ st = .noent ∨ st = .os .stat ∨ st = .os .open)) ∨ (s'.path = some ⟨0, fun _ => zeroPage⟩ ∧ st = .os .trunc) ∨
    (s'.path = some ⟨8192, fun _ => zeroPage⟩ ∧ (st = .os .map ∨ st = .os .mapAddr)) ∨
    (s'.path = some emptyDisk ∧ (st = .os .sync ∨ st = .os .lock ∨ st = .os .table)) := by
  obtain ⟨path, fds, maps⟩ := s
  simp only at hp
  subst hp
  unfold openHandle at ho
  split at ho
  · cases ho; exact .inl ⟨rfl, by simp⟩
  cases hstat : fails .stat with
  | true => simp only [fileOpen, hstat, if_true] at ho; cases ho; exact .inl ⟨rfl, by simp⟩
  | false =>
  cases hcr : fl.create with
  | false => simp [fileOpen, hstat, hcr] at ho; obtain ⟨rfl, rfl, rfl⟩ := ho; exact .inl ⟨rfl, by simp⟩
  | true =>
  cases hopen : fails .open with
  | true => simp [fileOpen, hstat, hopen, hcr] at ho; obtain ⟨rfl, rfl, rfl⟩ := ho; exact .inl ⟨rfl, by simp⟩
  | false =>
  cases htr : (fl.rdonly || fails .trunc) with
  | true => simp [fileOpen, hstat, hopen, hcr, htr] at ho; obtain ⟨rfl, rfl, rfl⟩ := ho; exact .inr (.inl ⟨rfl, rfl⟩)
  | false =>
  cases hmap : fails .map with
  | true =>
    simp [fileOpen, mapFile, dropFile, hstat, hopen, hmap, hcr, htr] at ho
    obtain ⟨rfl, rfl, rfl⟩ := ho; exact .inr (.inr (.inl ⟨rfl, .inl rfl⟩))
  | false =>
  cases hadr : fails .mapAddr with
  | true =>
    simp [fileOpen, mapFile, dropFile, hstat, hopen, hmap, hadr, hcr, htr] at ho
    obtain ⟨rfl, rfl, rfl⟩ := ho; exact .inr (.inr (.inl ⟨rfl, .inr rfl⟩))
  | false =>
  simp only [fileOpen, mapFile, hstat, hopen, hmap, hadr, hcr, htr, initMeta, Bool.false_eq_true, if_false, Bool.not_true, if_true] at ho
  obtain ⟨r, h1, ho⟩ := Res.bind_eq_ok.1 ho
  obtain ⟨env, h2, h1⟩ := Res.bind_eq_ok.1 h1
  have hp : 2 ≤ pagesIn h.mapsize := by
    unfold envCreate at h2
    split at h2
    · cases h2
    · omega
  obtain ⟨env', e1, e2, -⟩ := create_opened hp
  rw [h2] at e1; cases e1
  right; right; right
  cases hs : fails .sync with
  | true =>
    simp only [hs, if_true] at h1
    cases h1; simp only at ho; cases ho
    exact ⟨by rw [e2]; rfl, .inl rfl⟩
  | false =>
  simp only [hs, Bool.false_eq_true, if_false] at h1
  cases h1
  simp only at ho
  split at ho
  · cases ho; exact ⟨by rw [e2]; rfl, .inr (.inl rfl)⟩
  split at ho
  · cases ho; exact ⟨by rw [e2]; rfl, .inr (.inr rfl)⟩
  cases ho; exact absurd rfl hst

/-- A file that is not recognised, or too short, is never opened, whatever the flags, the handle and the calls that fail. -/
theorem never_opens {fails : Call → Bool} {fl : Flags} {s s' : Sys} {h h' : Handle} {st : OpenSt} {d : Disk} (hp : s.path = some d)
    (hd : d.len ≤ 4096 ∨ ¬ Recognised d) (ho : openHandle fails fl s h = .ok (st, s', h')) : st ≠ .ok ∧ s'.path = some d := by
  obtain ⟨path, fds, maps⟩ := s
  simp only at hp
  subst hp
  unfold openHandle at ho
  split at ho
  · cases ho; exact ⟨by simp, rfl⟩
  cases hstat : fails .stat with
  | true => simp only [fileOpen, hstat, if_true] at ho; cases ho; exact ⟨by simp, rfl⟩
  | false =>
  cases hopen : fails .open with
  | true => simp [fileOpen, hstat, hopen] at ho; obtain ⟨rfl, rfl, rfl⟩ := ho; exact ⟨by simp, rfl⟩
  | false =>
  cases hmap : fails .map with
  | true => simp [fileOpen, mapFile, dropFile, hstat, hopen, hmap] at ho; obtain ⟨rfl, rfl, rfl⟩ := ho; exact ⟨by simp, rfl⟩
  | false =>
  cases hadr : fails .mapAddr with
  | true => simp [fileOpen, mapFile, dropFile, hstat, hopen, hmap, hadr] at ho; obtain ⟨rfl, rfl, rfl⟩ := ho; exact ⟨by simp, rfl⟩
  | false =>
  simp only [fileOpen, mapFile, hstat, hopen, hmap, hadr, initMeta, Bool.false_eq_true, if_false] at ho
  obtain ⟨r, h1, ho⟩ := Res.bind_eq_ok.1 ho
  obtain ⟨r', h2, h1⟩ := Res.bind_eq_ok.1 h1
  have hlen : 2 ≤ pagesIn d.len ∧ 2 ≤ pagesIn h.mapsize := by
    unfold envOpen at h2
    split at h2
    · cases h2
    · omega
  have hnr : ¬ Recognised d := by
    rcases hd with hd | hd
    · have := hlen.1; unfold pagesIn at this; omega
    · exact hd
  rw [(open_fails_iff hlen.1 hlen.2).2 hnr] at h2
  cases h2
  simp only at h1
  cases h1
  simp only at ho
  cases ho
  exact ⟨by simp, rfl⟩

theorem zeros_not_recognised (n : Nat) : ¬ Recognised ⟨n, fun _ => zeroPage⟩ := by
  rintro ⟨k, -, h, -⟩
  have : ule zeroPage 0 4 = 0 := by decide
  simp only [this] at h
  omega

/-- C94 is false of creation: if the file cannot be mapped (or made two pages long), what is left at the path is never opened again, although `NAPR_DB_CREATE` is given and
no call fails any more; if it could not be made longer, opening it reads beyond its end. -/
theorem failed_creation_sticks {fails : Call → Bool} {fl : Flags} {s s' : Sys} {h h' : Handle} {c : Call} (hp : s.path = none)
    (ho : openHandle fails fl s h = .ok (.os c, s', h')) (hc : c = .map ∨ c = .mapAddr ∨ c = .trunc) :
    (∀ fails2 fl2 s2 h2 st s3 h3, s2.path = s'.path → openHandle fails2 fl2 s2 h2 = .ok (st, s3, h3) → st ≠ .ok ∧ s3.path = s'.path) ∧
    (c = .trunc → ∀ fl2 s2 h2, 4096 < h2.mapsize → s2.path = s'.path → openHandle calm fl2 s2 h2 = .ub) := by
  have hd : ∃ d, s'.path = some d ∧ ¬ Recognised d ∧ (c = .trunc → d.len ≤ 4096) := by
    rcases failed_creation hp ho (by simp) with ⟨h, e⟩ | ⟨h, e⟩ | ⟨h, e⟩ | ⟨h, e⟩
    · exfalso; rcases hc with rfl | rfl | rfl <;> simp at e
    · exact ⟨_, h, zeros_not_recognised _, fun _ => by simp⟩
    · refine ⟨_, h, zeros_not_recognised _, fun e' => ?_⟩
      subst e'; simp at e
    · simp at e
      rcases hc with rfl | rfl | rfl <;> simp at e
  obtain ⟨d, h1, h2, h3⟩ := hd
  refine ⟨fun fails2 fl2 s2 h2' st s3 h3' hp2 ho2 => ?_, fun e fl2 s2 h2' hm hp2 => ?_⟩
  · rw [h1]; exact never_opens (hp2.trans h1) (.inr h2) ho2
  · exact (open_existing hm (hp2.trans h1)).2.2 (h3 e)

/-- C94: a creation that failed later than that has left a new database, which can be opened. -/
theorem late_failure_partial {fails : Call → Bool} {fl : Flags} {s s' : Sys} {h h' : Handle} {c : Call} (hp : s.path = none)
    (ho : openHandle fails fl s h = .ok (.os c, s', h')) (hc : c = .sync ∨ c = .lock ∨ c = .table) (fl2 : Flags) (s2 : Sys) (h2 : Handle)
    (hm : 4096 < h2.mapsize) (hp2 : s2.path = s'.path) : ∃ s3 h3, openHandle calm fl2 s2 h2 = .ok (.ok, s3, h3) := by
  rcases failed_creation hp ho (by simp) with ⟨-, e⟩ | ⟨-, e⟩ | ⟨-, e⟩ | ⟨h, e⟩
  · rcases hc with rfl | rfl | rfl <;> simp at e
  · simp at e; subst e; simp at hc
  · simp at e; rcases e with rfl | rfl <;> simp at hc
  · exact (open_existing hm (hp2.trans h)).1 (by decide) emptyDisk_recognised

/-! ## Histories of one handle -/

/-- A call on the handle. -/
inductive HandleOp where
  | opens (fails : Call → Bool) (fl : Flags)
  | close
  | size (n : Nat)

/-- A history of one handle in which it is not opened while it is open. -/
inductive Lives : Sys → Handle → List HandleOp → Sys → Handle → Prop
  | nil (s h) : Lives s h [] s h
  | opens {s h ops s1 h1 s2 h2 fails fl st} (hs : Shut h) (ho : openHandle fails fl s h = .ok (st, s1, h1)) (rest : Lives s1 h1 ops s2 h2) :
      Lives s h (.opens fails fl :: ops) s2 h2
  | close {s h ops s2 h2} (rest : Lives (closeHandle s h).1 (closeHandle s h).2 ops s2 h2) : Lives s h (.close :: ops) s2 h2
  | size {s h ops s2 h2 n} (rest : Lives s (setMapsize h n).2 ops s2 h2) : Lives s h (.size n :: ops) s2 h2

/-- As many descriptors and mappings as the handle accounts for. -/
def Accounts (a b : Nat) (s : Sys) (h : Handle) : Prop :=
  (Shut h ∧ s.fds = a ∧ s.maps = b) ∨ (h.file.isSome ∧ h.map.isSome ∧ h.db.isSome ∧ s.fds = a + 1 ∧ s.maps = b + 1)

theorem close_shut {s : Sys} {h : Handle} {a b : Nat} (hA : Accounts a b s h) :
    Shut (closeHandle s h).2 ∧ (closeHandle s h).1.fds = a ∧ (closeHandle s h).1.maps = b ∧ (closeHandle s h).1.path = s.path := by
  obtain ⟨path, fds, maps⟩ := s
  obtain ⟨msz, fileH, mapH, dbH⟩ := h
  rcases hA with ⟨⟨h1, h2, h3⟩, h4, h5⟩ | ⟨h1, h2, h3, h4, h5⟩
  · simp only at h1 h2 h3 h4 h5
    subst h1; subst h2; subst h3; subst h4; subst h5
    exact ⟨⟨rfl, rfl, rfl⟩, rfl, rfl, rfl⟩
  · simp only at h1 h2 h3 h4 h5
    unfold closeHandle
    simp only [h1, h2, if_true]
    exact ⟨⟨rfl, rfl, rfl⟩, by simp only [h4]; omega, by simp only [h5]; omega, trivial⟩

theorem lives_accounts {s s' : Sys} {h h' : Handle} {ops : List HandleOp} {a b : Nat} (H : Lives s h ops s' h') : Accounts a b s h → Accounts a b s' h' := by
  induction H with
  | nil s h => exact fun hA => hA
  | @opens s h ops s1 h1 s2 h2 fails fl st hs ho _ ih =>
    intro hA
    apply ih
    have hfd : s.fds = a ∧ s.maps = b := by
      rcases hA with ⟨-, h4, h5⟩ | ⟨h4, -⟩
      · exact ⟨h4, h5⟩
      · rw [hs.file] at h4; cases h4
    obtain ⟨-, ⟨-, e1, e2, d, env, -, hop, -⟩ | ⟨-, e1, e2, e3, -⟩⟩ := open_all_or_nothing hs ho
    · exact .inr ⟨by rw [hop.file]; rfl, by rw [hop.map]; rfl, by rw [hop.db]; rfl, by omega, by omega⟩
    · exact .inl ⟨e3, by omega, by omega⟩
  | close _ ih =>
    intro hA
    obtain ⟨c1, c2, c3, -⟩ := close_shut hA
    exact ih (.inl ⟨c1, c2, c3⟩)
  | @size s h ops s2 h2 n _ ih =>
    intro hA
    apply ih
    unfold setMapsize
    split
    · exact hA
    · rcases hA with ⟨⟨h1, h2, h3⟩, h4⟩ | hA
      · exact .inl ⟨⟨h1, h2, h3⟩, h4⟩
      · exact .inr hA

/-- C94: however often a handle is opened and closed, whichever calls fail: after closing it the process has the descriptors and mappings it had before the handle was made. -/
theorem handle_leaks_nothing {s s' : Sys} {h' : Handle} {ops : List HandleOp} (H : Lives s newHandle ops s' h') :
    (closeHandle s' h').1.fds = s.fds ∧ (closeHandle s' h').1.maps = s.maps ∧ Shut (closeHandle s' h').2 := by
  obtain ⟨c1, c2, c3, -⟩ := close_shut (lives_accounts H (.inl ⟨⟨rfl, rfl, rfl⟩, rfl, rfl⟩))
  exact ⟨c2, c3, c1⟩

/-- A handle that is opened while it is open loses its first descriptor and mapping for good. -/
theorem open_twice_leaks {fl fl2 : Flags} {s s1 s2 : Sys} {h h1 h2 : Handle} {fails : Call → Bool} (hs : Shut h)
    (h1o : openHandle fails fl s h = .ok (.ok, s1, h1)) (h2o : openHandle fails fl2 s1 h1 = .ok (.ok, s2, h2)) :
    (closeHandle s2 h2).1.fds = s.fds + 1 ∧ (closeHandle s2 h2).1.maps = s.maps + 1 ∧ Shut (closeHandle s2 h2).2 := by
  obtain ⟨-, ⟨-, e1, e2, d, env, e3, -⟩ | ⟨e, -⟩⟩ := open_all_or_nothing hs h1o
  rotate_left
  · exact absurd rfl e
  obtain ⟨path, fds, maps⟩ := s1
  simp only at e1 e2 e3
  subst e3
  have hA : Accounts (s.fds + 1) (s.maps + 1) s2 h2 := by
    unfold openHandle at h2o
    split at h2o
    · cases h2o
    cases hstat : fails .stat with
    | true => simp only [fileOpen, hstat, if_true] at h2o; cases h2o
    | false =>
    cases hopen : fails .open with
    | true => simp [fileOpen, hstat, hopen] at h2o
    | false =>
    cases hmap : fails .map with
    | true => simp [fileOpen, mapFile, dropFile, hstat, hopen, hmap] at h2o
    | false =>
    cases hadr : fails .mapAddr with
    | true => simp [fileOpen, mapFile, dropFile, hstat, hopen, hmap, hadr] at h2o
    | false =>
    simp only [fileOpen, mapFile, hstat, hopen, hmap, hadr, initMeta, Bool.false_eq_true, if_false] at h2o
    obtain ⟨r, h3, h2o⟩ := Res.bind_eq_ok.1 h2o
    obtain ⟨r', h4, h3⟩ := Res.bind_eq_ok.1 h3
    cases r' with
    | error e => simp only at h3; cases h3; simp only at h2o; cases h2o
    | ok env =>
      simp only at h3
      cases h3
      simp only at h2o
      split at h2o
      · cases h2o
      split at h2o
      · cases h2o
      cases h2o
      exact .inr ⟨rfl, rfl, rfl, by simp only; omega, by simp only; omega⟩
  obtain ⟨c1, c2, c3, -⟩ := close_shut hA
  exact ⟨c2, c3, c1⟩

/-- C94: what was created can be opened again, by any handle with room for two pages, and is empty. -/
theorem create_close_open {fails : Call → Bool} {fl fl2 : Flags} {s s1 : Sys} {h h1 h2 : Handle} (hs : Shut h) (hp : s.path = none)
    (h1o : openHandle fails fl s h = .ok (.ok, s1, h1)) (hs2 : Shut h2) (hm : 4096 < h2.mapsize) :
    ∃ s2 h3 env, openHandle calm fl2 (closeHandle s1 h1).1 h2 = .ok (.ok, s2, h3) ∧ h3.db = some env ∧ env.live = 1 ∧ metaRoot env.liveMeta = 0 ∧
      s2.path = s1.path := by
  obtain ⟨-, ⟨-, e1, e2, d, env, e3, hop, e4⟩ | ⟨e, -⟩⟩ := open_all_or_nothing hs h1o
  rotate_left
  · exact absurd rfl e
  rcases e4 with e4 | ⟨-, -, -, rfl⟩
  · rw [hp] at e4; cases e4
  have hA : Accounts s.fds s.maps s1 h1 := .inr ⟨by rw [hop.file]; rfl, by rw [hop.map]; rfl, by rw [hop.db]; rfl, e1, e2⟩
  have hpath := (close_shut hA).2.2.2
  obtain ⟨s2, h3, e5⟩ := (open_existing (fl := fl2) hm (hpath.trans e3)).1 (by decide) emptyDisk_recognised
  obtain ⟨-, ⟨-, -, -, d, env', e6, hop', e7⟩ | ⟨e, -⟩⟩ := open_all_or_nothing hs2 e5
  rotate_left
  · exact absurd rfl e
  rcases e7 with e7 | ⟨e7, -⟩
  rotate_left
  · rw [hpath, e3] at e7; cases e7
  rw [hpath, e3] at e7
  cases e7
  have hl : env'.live = 1 := by
    have h1 := hop'.newest 1 (by omega) (metaPage_valid _ _ _ _)
    have h2 := hop'.live
    unfold Env.liveMeta at h1
    rw [hop'.pages] at h1
    rcases (by omega : env'.live = 0 ∨ env'.live = 1) with e | e
    · rw [e] at h1
      have : metaTxnid (metaPage 1 0 1 0) ≤ metaTxnid (metaPage 0 0 1 0) := h1
      rw [metaPage_txnid, metaPage_txnid] at this; omega
    · exact e
  refine ⟨s2, h3, env', e5, hop'.db, hl, ?_, by rw [e6, e3]⟩
  unfold Env.liveMeta
  rw [hop'.pages, hl]
  exact metaPage_root 1 0 1 0

/-! ## Databases opened read-only -/

/-- A history of write transactions on a handle: any operations, then commit or abort. -/
inductive Attempts (writable : Bool) : Env → Env → Prop
  | nil (env) : Attempts writable env env
  | commit {env env1 env2 env' : Env} {t t' : Txn} {al : Alloc} {st : Status} (hb : beginWrite env = some (env1, t)) (hops : Ops env1 t t')
      (hc : commitOn writable al env1 t' = .ok (st, env2)) (rest : Attempts writable env2 env') : Attempts writable env env'
  | abort {env env1 env' : Env} {t t' : Txn} (hb : beginWrite env = some (env1, t)) (hops : Ops env1 t t') (rest : Attempts writable (abortWrite env1) env') :
      Attempts writable env env'

theorem refused_first {al : Alloc} {env : Env} {t : Txn} {acts : List Act} (h : commitActs al env t = .ok (.ok acts)) :
    refusedAt acts < acts.length ∧ ∀ a ∈ acts.take (refusedAt acts), a = .sync := by
  obtain ⟨A, root, last, e⟩ : ∃ A n p, acts = A ++ [.write n p, .sync] := by
    unfold commitActs at h
    obtain ⟨r, h1, h⟩ := Res.bind_eq_ok.1 h
    split at h
    · cases h
    · obtain ⟨ps, -, h⟩ := Res.bind_eq_ok.1 h
      cases h
      exact ⟨_, _, _, rfl⟩
  subst e
  constructor
  · unfold refusedAt
    rw [List.findIdx_lt_length]
    exact ⟨_, by simp; exact .inr (.inl rfl), rfl⟩
  · intro a ha
    obtain ⟨i, hi, rfl⟩ := List.mem_take_iff_getElem.1 ha
    have := List.not_of_lt_findIdx (p := fun a : Act => !a.isSync) (xs := A ++ [.write root last, .sync]) (i := i) (by unfold refusedAt at hi; omega)
    revert this
    cases (A ++ [Act.write root last, .sync])[i]'(by omega) <;> simp [Act.isSync]

theorem run_syncs {acts : List Act} (h : ∀ a ∈ acts, a = .sync) (env : Env) : runActs env acts = env := by
  induction acts with
  | nil => rfl
  | cons a as ih =>
    rw [runActs_cons, h a (by simp)]
    exact ih fun x hx => h x (by simp [hx])

/-- C96: on a handle opened read-only a commit that has something to write fails, and no commit changes the database. -/
theorem readonly_commit {al : Alloc} {env env' : Env} {t : Txn} {st : Status} (hc : commitOn false al env t = .ok (st, env')) :
    env' = { env with locked := false } ∧ (t.dirty ≠ [] → st ≠ .success) := by
  unfold commitOn at hc
  simp only [Bool.false_eq_true, if_false] at hc
  split at hc
  · rename_i hd
    unfold commitWith at hc
    rw [if_pos hd] at hc
    cases hc
    exact ⟨rfl, fun h => absurd hd h⟩
  · rename_i hd
    obtain ⟨r, h1, hc⟩ := Res.bind_eq_ok.1 hc
    cases r with
    | error e =>
      simp only at hc
      rcases commitWith_cases hd hc with ⟨e', h2, h3, h4⟩ | ⟨acts, k, h2, -⟩ | ⟨acts, h2, -⟩
      · rw [h1] at h2; cases h2
        exact ⟨h4, fun _ => by rw [h3]; exact commitActs_err h1⟩
      · rw [h1] at h2; cases h2
      · rw [h1] at h2; cases h2
    | ok acts =>
      simp only at hc
      obtain ⟨r1, r2⟩ := refused_first h1
      rcases commitWith_cases hd hc with ⟨e', h2, -⟩ | ⟨acts', k, h2, h3, h4, h5, h6⟩ | ⟨acts', h2, h3, -⟩
      · rw [h1] at h2; cases h2
      · rw [h1] at h2; cases h2
        cases h3
        rw [run_syncs r2] at h6
        exact ⟨h6, fun _ => by rw [h5]; simp⟩
      · rw [h1] at h2; cases h2
        have := h3 _ rfl
        omega

/-- C96: whatever transactions are tried on a handle opened read-only, the file stays as it is. -/
theorem readonly_unchanged {env env' : Env} (H : Attempts false env env') : env'.file = env.file ∧ env'.filePages = env.filePages ∧ env'.live = env.live := by
  induction H with
  | nil env => exact ⟨rfl, rfl, rfl⟩
  | @commit env env1 env2 env' t t' al st hb hops hc _ ih =>
    have h1 : env1.file = env.file ∧ env1.filePages = env.filePages ∧ env1.live = env.live := by
      unfold beginWrite at hb
      split at hb
      · cases hb
      · cases hb; exact ⟨rfl, rfl, rfl⟩
    rw [(readonly_commit hc).1] at ih
    exact ⟨ih.1.trans h1.1, ih.2.1.trans h1.2.1, ih.2.2.trans h1.2.2⟩
  | @abort env env1 env' t t' hb hops _ ih =>
    have h1 : env1.file = env.file ∧ env1.filePages = env.filePages ∧ env1.live = env.live := by
      unfold beginWrite at hb
      split at hb
      · cases hb
      · cases hb; exact ⟨rfl, rfl, rfl⟩
    exact ⟨ih.1.trans h1.1, ih.2.1.trans h1.2.1, ih.2.2.trans h1.2.2⟩

/-- C96 is false of opening: read-only with `NAPR_DB_CREATE`, a missing file makes the opening fail, but an empty file is left behind, and no opening is defined any more. -/
theorem readonly_create_spoils {s : Sys} {h : Handle} (hm : h.mapsize ≠ 0) (hp : s.path = none) :
    ∃ s', openHandle calm ⟨true, true⟩ s h = .ok (.os .trunc, s', { h with file := none }) ∧ s'.path = some ⟨0, fun _ => zeroPage⟩ ∧
      ∀ fl2 s2 h2, 4096 < h2.mapsize → s2.path = s'.path → openHandle calm fl2 s2 h2 = .ub := by
  have e : openHandle calm ⟨true, true⟩ s h = .ok (.os .trunc, { s with path := some ⟨0, fun _ => zeroPage⟩ }, { h with file := none }) := by
    unfold openHandle
    rw [if_neg hm]
    simp [fileOpen, calm, hp]
  exact ⟨_, e, rfl, (failed_creation_sticks hp e (.inr (.inr rfl))).2 rfl⟩

end Verif.Db
