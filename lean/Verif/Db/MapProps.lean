import Verif.Db.TxnProps
import Verif.Db.Witness

/-!
# The size of the map (C88)

`napr_db_env_set_mapsize` fixes how much of the file can be reached.  `napr_db_env_open` does not compare it with the length of the file, and no
commit compares the new length with it.
-/

namespace Verif.Db

open Verif.Page

/-- **C88, part.**  Opened with any map that reaches beyond the last page of the database, a reader finds what was committed.  (That a smaller map is refused is false:
`small_map_opened`.) -/
theorem large_map_partial {env : Env} {h hf : Nat} {m : KvMap} {fl : List (Bytes × Bytes)} (hdb : DbOk env h hf m fl) {mapPages : Nat}
    (hmap : metaLast env.liveMeta < mapPages) (hcap : mapPages < 2 ^ 52) {key : Bytes} (hk : key.length < 65536) {fuel : Nat} (hf' : h < fuel) :
    ∃ env' env'' t, envOpen env.file env.filePages mapPages = .ok (.ok env') ∧ beginRead env' 1 1 = .ok (env'', t) ∧
      get env'' t fuel key = .ok (m.answer key) := by
  obtain ⟨env', h1, -, -, -, h2⟩ := reopen_keeps hdb hmap hcap
  have hr : env'.readers = List.replicate maxReaders noSlot := by
    unfold envOpen at h1
    split at h1
    · cases h1
    · split at h1
      · cases h1
      · cases h1; rfl
  have hb : ∃ x, beginRead env' 1 1 = .ok x := by
    unfold beginRead
    rw [hr]
    exact ⟨_, rfl⟩
  obtain ⟨⟨env'', t⟩, hb⟩ := hb
  exact ⟨env', env'', t, h1, hb, reader_sees_committed h2 hb hk hf'⟩

/-- C88 is false of opening: whatever is in the file, if its meta pages are in order and the root of the newest one lies beyond the map, opening succeeds, and every
lookup reads outside the map. -/
theorem small_map_opened {file : Nat → Page} {fp mp l : Nat} (h1 : 2 ≤ fp) (h2 : 2 ≤ mp) (hl : selectLive (file 0) (file 1) = some l)
    (hroot : mp ≤ metaRoot (file l)) :
    ∃ env, envOpen file fp mp = .ok (.ok env) ∧ ∀ key fuel, get env (readTxn env) (fuel + 1) key = .ub := by
  refine ⟨⟨file, fp, mp, l, false, List.replicate maxReaders noSlot⟩, ?_, ?_⟩
  · unfold envOpen
    rw [if_neg (by omega), hl]
  · intro key fuel
    have hr : (readTxn ⟨file, fp, mp, l, false, List.replicate maxReaders noSlot⟩).root = metaRoot (file l) := rfl
    have hg : getPage ⟨file, fp, mp, l, false, List.replicate maxReaders noSlot⟩ (readTxn ⟨file, fp, mp, l, false, List.replicate maxReaders noSlot⟩)
        (metaRoot (file l)) = .ub := by
      unfold getPage
      rw [if_pos (show (readTxn ⟨file, fp, mp, l, false, List.replicate maxReaders noSlot⟩).rdonly = true from rfl)]
      unfold mapPage
      rw [if_neg (by simp only; omega)]
    unfold get
    rw [hr, if_neg (by omega), findLeaf, hg]
    rfl

/-- A new database with room for three pages, and write transactions on it. -/
def narrow (ls : List (List (Bytes × Bytes))) : Res (List Status × Env) := do
  let e ← envCreate 3
  sessions e ls

def Res.isUb (r : Res α) : Bool := match r with | .ub => true | _ => false

theorem Res.isUb_iff {r : Res α} (h : Res.isUb r = true) : r = .ub := by
  cases r with
  | ub => rfl
  | ok _ => cases h
  | div => cases h

/-- C88 is false of growing: with room for three pages the first transaction fits and its key is found.  The second does not fit; its puts and its commit report success,
and after that the lookup of the first key reads outside the map. -/
theorem commit_beyond_map :
    (∃ sts env, narrow [[([97], val2)]] = .ok (sts, env) ∧ (∀ s ∈ sts, s = .success) ∧ ∃ v, look env [97] = .ok (.ok v)) ∧
    ∃ sts env, narrow [[([97], val2)], [([98], val2), ([99], val2)]] = .ok (sts, env) ∧ (∀ s ∈ sts, s = .success) ∧ look env [97] = .ub ∧ look env [99] = .ub := by
  have h : Res.holds (narrow [[([97], val2)]]) (fun r => r.1.all (· == .success) && Res.found (look r.2 [97])) = true := by decide +kernel
  have h' : Res.holds (narrow [[([97], val2)], [([98], val2), ([99], val2)]])
      (fun r => r.1.all (· == .success) && (Res.isUb (look r.2 [97]) && Res.isUb (look r.2 [99]))) = true := by decide +kernel
  obtain ⟨⟨sts, env⟩, h1, h2⟩ := Res.holds_iff h
  obtain ⟨⟨sts', env'⟩, h3, h4⟩ := Res.holds_iff h'
  simp only [Bool.and_eq_true, List.all_eq_true, beq_iff_eq] at h2 h4
  exact ⟨⟨sts, env, h1, h2.1, Res.found_iff h2.2⟩, sts', env', h3, h4.1, Res.isUb_iff h4.2.1, Res.isUb_iff h4.2.2⟩

/-- The hypotheses of `small_map_opened` hold of a file with a page 5 as root and a map of three pages. -/
example : ∃ env, envOpen (fun n => if n = 0 then metaPage 4 5 6 0 else metaPage 3 2 2 0) 7 3 = .ok (.ok env) ∧
    ∀ key fuel, get env (readTxn env) (fuel + 1) key = .ub :=
  small_map_opened (l := 0) (by decide) (by decide) (by decide +kernel) (by decide +kernel)

end Verif.Db
