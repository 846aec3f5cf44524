import Verif.Db.TxnProps

/-!
# Property theorems about commits that the Free DB refuses: C79, C56
-/

namespace Verif.Db

open Verif.Page

/-- C56: a map must hold the two meta pages; then a new database can be created. -/
theorem create_defined_iff {mapPages : Nat} : (∃ env, envCreate mapPages = .ok env) ↔ 2 ≤ mapPages := by
  unfold envCreate
  constructor
  · rintro ⟨env, h⟩
    split at h
    · cases h
    · omega
  · intro h
    rw [if_neg (by omega)]
    exact ⟨_, rfl⟩

/-- An entry of a new tree whose size, as the code computes it, does not fit an empty page. -/
theorem newTree_refuses {al : Alloc} {t : Txn} {a : Nat × Txn} {key val : Bytes} (hal : al t = .ok a) (ha : a.1 < 2 ^ 64)
    (hs : 4078 < (4 + key.length + val.length) % 65536 + 2) : newTree al t key val = .ok (a.2, .error .nospc) := by
  have wf := emptyPage_wf true a.1 ha
  have hrm : room (emptyPage true a.1) = 4078 := by
    obtain ⟨-, -, h1, h2, -⟩ := emptyPage_fields true a.1 ha
    unfold room; rw [h1, h2]
  unfold newTree
  rw [hal, Res.ok_bind, insert_nospc wf (it := .leaf key val) (by rw [emptyPage_isLeaf true a.1 ha]; rfl) (by
    rw [hrm]; simp only [Item.size]; exact hs), Res.ok_bind]
  rfl

/-- An entry of a new tree whose size wraps around to one that fits. -/
theorem newTree_overruns {al : Alloc} {t : Txn} {a : Nat × Txn} {key val : Bytes} (hal : al t = .ok a) (ha : a.1 < 2 ^ 64)
    (hb : 65536 ≤ 4 + key.length + val.length) (hs : (4 + key.length + val.length) % 65536 + 2 ≤ 4078) : newTree al t key val = .ub := by
  have wf := emptyPage_wf true a.1 ha
  have hrm : room (emptyPage true a.1) = 4078 := by
    obtain ⟨-, -, h1, h2, -⟩ := emptyPage_fields true a.1 ha
    unfold room; rw [h1, h2]
  unfold newTree
  rw [hal, Res.ok_bind, oversized_insert_undefined wf (Nat.zero_le _) (it := .leaf key val) (by rw [emptyPage_isLeaf true a.1 ha]; rfl) (by
    simp only [Item.size]; exact hb) (by rw [hrm]; simp only [Item.size]; exact hs)]
  rfl

theorem populate_new {al : Alloc} {env : Env} {t : Txn} (hf : t.freed ≠ []) (hr : t.freeRoot = 0) :
    populate al env t = newTree al t (le 8 t.txnid) (t.freed.flatMap (le 8)) := by
  unfold populate
  rw [if_neg hf, if_pos (.inl hr)]

/-- C79 is false: the first commit that has pages to list as free reports "no space" and discards the
transaction when there are more than 508 of them, however much room there is in the file. -/
theorem commit_refuses_many {fuel : Nat} {fail : Option Nat} {env : Env} {t : Txn} {a : Nat × Txn} (hd : t.dirty ≠ []) (hr : t.freeRoot = 0)
    (hal : alloc env fuel t = .ok a) (ha : a.1 < 2 ^ 64) (h1 : 508 < t.freed.length) (h2 : t.freed.length < 8191) :
    commitWith (alloc env fuel) fail env t = .ok (.nospc, { env with locked := false }) := by
  have hf : t.freed ≠ [] := by rintro h; rw [h] at h1; simp at h1
  unfold commitWith
  rw [if_neg hd]
  unfold commitActs
  rw [populate_new hf hr, newTree_refuses hal ha (by rw [le_length, flatMap_le_length]; omega), Res.ok_bind]
  rfl

/-- C79 is false in a second way: with 8191 to 8698 pages to list the size wraps around and the commit
writes beyond the page. -/
theorem commit_overruns {fuel : Nat} {fail : Option Nat} {env : Env} {t : Txn} {a : Nat × Txn} (hd : t.dirty ≠ []) (hr : t.freeRoot = 0)
    (hal : alloc env fuel t = .ok a) (ha : a.1 < 2 ^ 64) (h1 : 8191 ≤ t.freed.length) (h2 : t.freed.length < 8699) :
    commitWith (alloc env fuel) fail env t = .ub := by
  have hf : t.freed ≠ [] := by rintro h; rw [h] at h1; simp at h1
  unfold commitWith
  rw [if_neg hd]
  unfold commitActs
  rw [populate_new hf hr, newTree_overruns hal ha (by rw [le_length, flatMap_le_length]; omega) (by rw [le_length, flatMap_le_length]; omega)]
  rfl

/-- C56, C79: if the Free DB has an entry under the id of the transaction already (which `DbOk` excludes),
the commit reports it and changes nothing. -/
theorem commit_refuses_duplicate {al : Alloc} {fail : Option Nat} {env : Env} {t : Txn} {hf : Nat} {fl : List (Bytes × Bytes)}
    (hd : t.dirty ≠ []) (hfd : t.freed ≠ []) (hfr : t.freeRoot ≠ 0) (hfree : FreeDb (getPage env t) hf t.freeRoot fl) (hdep : hf < maxDepth)
    (hb : ∀ x ∈ pagesOf (getPage env t) hf t.freeRoot, x ≤ maxPgno env t) (hk : le 8 t.txnid ∈ fl.map Prod.fst) :
    commitWith al fail env t = .ok (.exist, { env with locked := false }) := by
  rcases hfree with ⟨h0, -⟩ | ⟨-, k1, -, -, k4⟩
  · exact absurd h0 hfr
  · obtain ⟨path, p1, p2⟩ := findPath_spec (env := env) (t := t) (key := le 8 t.txnid) (by rw [le_length]; decide) hf k1 hdep hb
    obtain ⟨lo', hi', p, A, B, i1, ⟨q, j1, j2, j3, j4, j5, -⟩, -, i2, i3, i4, -⟩ := leaf_focus hf k1 p1 (inRange_none _)
    rw [i1] at j1; cases j1
    have hin : le 8 t.txnid ∈ keys p := by
      rw [k4] at i2
      rw [i2, List.map_append, List.map_append, List.mem_append, List.mem_append] at hk
      rcases hk with (h | h) | h
      · obtain ⟨kv, h1, h2⟩ := List.mem_map.1 h
        have := i3 kv h1; rw [h2] at this; exact absurd this (blt_irrefl _)
      · rw [keys_eq_kvs]; exact h
      · obtain ⟨kv, h1, h2⟩ := List.mem_map.1 h
        have := i4 kv h1; rw [h2] at this; exact absurd this (blt_irrefl _)
    obtain ⟨r, -, -, hr, -, h1, -⟩ := search_finds_partial j3 j5 (key := le 8 t.txnid) (by rw [le_length]; decide)
    have hp : probe p (le 8 t.txnid) = .ok r := by unfold probe; rw [hr]; rfl
    obtain ⟨i, rfl, -⟩ := h1 hin
    unfold commitWith
    rw [if_neg hd]
    unfold commitActs populate
    rw [if_neg hfd, if_neg (by
      rintro (h | h)
      · exact hfr h
      · have := hb _ (self_mem_pagesOf _ _ _); omega)]
    unfold insertFree
    rw [p2, Res.ok_bind]
    simp only [i1, Res.ok_bind, hp, Found.hit, if_true]

end Verif.Db
