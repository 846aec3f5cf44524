import Verif.Db.StuckProps
import Verif.Db.TxnExamples

/-!
# Helper lemmas: a database of any size after a commit that failed (C129)
-/

namespace Verif.Db

open Verif.Page

/-! ### The entry of a transaction goes into the tree of the Free DB that is in use -/

/-- The Free DB, if there is one, keeps its root and its pages when it takes up the freed pages of a transaction. -/
theorem populate_in_place {al : Alloc} {env : Env} {id fr hf : Nat} {F : List Nat} {t : Txn} {M : List Nat}
    {fl : List (Bytes × Bytes)} (hF : F = 0 :: 1 :: treePages (mapPage env) hf fr) (hc : Clean id fr F t)
    (hM : ∀ x ∈ M, x ∉ F ∧ x ≤ t.newLast) (hfree : FreeDb (mapPage env) hf fr fl) (hlow : ∀ x ∈ treePages (mapPage env) hf fr, 2 ≤ x)
    (hd : hf < maxDepth) (hid : id < 2 ^ 64) (hids : ∀ kv ∈ fl, ∃ i < id, kv.1 = le 8 i) (hroom : FreeRoom env id fr hf t) (hf0 : fr ≠ 0) (hfd : t.freed ≠ []) :
    ∃ t2 fl', populate al env t = .ok (t2, .ok fr) ∧ Clean id fr [0, 1] t2 ∧ t2.root = t.root ∧ t2.newLast = t.newLast ∧ t2.dirty ≠ [] ∧
      (∀ x ∈ M, getPage env t2 x = getPage env t x) ∧ FreeDb (getPage env t2) hf fr fl' ∧
      treePages (getPage env t2) hf fr = treePages (mapPage env) hf fr ∧ le 8 id ∈ fl'.map Prod.fst := by
  have h0F : 0 ∈ F := by rw [hF]; simp
  have h1F : 1 ∈ F := by rw [hF]; simp
  have hsub : ∀ x ∈ treePages (mapPage env) hf fr, x ∈ F := fun x hx => by rw [hF]; simp [hx]
  have hview : ∀ x ∈ treePages (mapPage env) hf fr, getPage env t x = mapPage env x := fun x hx => hc.view env (hsub x hx)
  have hc01 : Clean id fr [0, 1] t := hc.mono (by intro x hx; simp at hx; rcases hx with rfl | rfl <;> assumption)
  obtain ⟨g1, g2⟩ := freeDb_frame hfree hview
  unfold populate
  rw [if_neg hfd]
  have htp : treePages (mapPage env) hf fr = pagesOf (mapPage env) hf fr := by unfold treePages; rw [if_neg hf0]
  have hfrF : fr ∈ F := hsub fr (by rw [htp]; exact self_mem_pagesOf _ _ _)
  rw [if_neg (by
    rw [hc.free]
    rintro (h | h)
    · exact hf0 h
    · unfold maxPgno at h
      rw [hc.rdonly] at h
      have := hc.last fr hfrF
      simp at h; omega)]
  rcases g1 with ⟨hx, -⟩ | ⟨-, k1, k2, k3, k4⟩
  · exact absurd hx hf0
  have hpg : pagesOf (getPage env t) hf fr = pagesOf (mapPage env) hf fr := by
    unfold treePages at g2; rw [if_neg hf0, if_neg hf0] at g2; exact g2
  have hfits := hroom.leaf hfd hf0
  have hkey : le 8 id ∉ fl.map Prod.fst := by
    intro hm
    obtain ⟨kv, h1, h2⟩ := List.mem_map.1 hm
    obtain ⟨i, hi, e⟩ := hids kv h1
    rw [e] at h2
    have := le8_inj (by omega) hid h2
    omega
  have hlen : (t.freed.flatMap (le 8)).length = 8 * t.freed.length := flatMap_le_length _
  have hin : ∀ x ∈ pagesOf (getPage env t) hf fr, x ∈ F := by rw [hpg, ← htp]; exact hsub
  have hfit2 : Fits (getPage env t) (le 8 id) (4 + (le 8 id).length + (t.freed.flatMap (le 8)).length) hf fr := by
    rw [le_length, hlen, show 4 + 8 + 8 * t.freed.length = 12 + 8 * t.freed.length by omega]
    exact fits_frame hf (fun x hx => hview x (by rw [htp]; exact hx)) hfits
  have hszs : 4 + (le 8 id).length + (t.freed.flatMap (le 8)).length < 65536 := by
    obtain ⟨path, p1, -⟩ := findPath_spec (env := env) (t := t) (key := le 8 id) (by simp) hf k1 hd (by
      intro x hx; unfold maxPgno; rw [hc.rdonly]; exact hc.last x (hin x hx))
    obtain ⟨lo', hi', p, A, B, i1, ⟨q, j1, j2, j3, -⟩, -⟩ := leaf_focus hf k1 p1 (inRange_none _)
    rw [i1] at j1; cases j1
    have := fits_path hf hfit2 p1 p i1
    have h1 := j3.top
    unfold pageSize at h1
    unfold room at this
    omega
  obtain ⟨path, t1, p, f, q, a1, a2, a3, a4, a5, a6, a7, a8, a9, a10, a11, a12, a13, a14, a15⟩ :=
    insert_fits (env := env) (t := t) (r := fr) (h := hf) (key := le 8 id) (val := t.freed.flatMap (le 8)) (by simp) hszs
      hc.rdonly k1 (fun x hx => hc.last x (hin x hx)) (by rw [k4]; exact hkey) hd hfit2
  obtain ⟨w1, w2, ⟨X, Y, w3, w4⟩, w5⟩ := a15 k3
  have hlm : path.getLastD 0 ∈ pagesOf (getPage env t) hf fr := by
    refine isPath_mem a3 _ (getLastD_mem ?_)
    obtain ⟨rest, hr, -⟩ := isPath_cons a3
    rw [hr]; simp
  have hnot01 : ∀ x ∈ pagesOf (getPage env t) hf fr, x ∉ [0, 1] ∧ x ≤ t.newLast := by
    intro x hx
    refine ⟨?_, hc.last x (hin x hx)⟩
    have := hlow x (by rw [htp, ← hpg]; exact hx)
    simp; omega
  rw [hc.txnid, insertFree_fits (by rw [hc.free]; exact a1) a4 a5 a6 a7 a8 a9, a2]
  refine ⟨_, _, rfl, ?_, a11.root, a11.newLast, setDirty_ne _ _ _, ?_, .inr ⟨hf0, w1, w5 k2, by rw [w2]; exact k3, w4⟩, ?_, ?_⟩
  · refine Clean.set ?_ (hnot01 _ hlm).1 a10 a13 ?_
    · exact a12 [0, 1] (Clean id fr [0, 1]) (fun _ _ _ h hn hp hwf hl => h.set hn hp hwf hl) (fun t x _ h => h.freed (t.freed ++ [x]))
        (fun x hx => hnot01 x (isPath_mem a3 x hx)) hc01
    · rw [a11.newLast]; exact (hnot01 _ hlm).2
  · intro x hx
    rw [a14, if_neg]
    rintro rfl
    exact (hM _ hx).1 (hin _ hlm)
  · unfold treePages; rw [if_neg hf0, if_neg hf0, w2, hpg]
  · simp

/-! ### The pages that were written -/

/-- The file operations of a commit before its pages are synced. -/
def pageActs (env : Env) (t : Txn) : List Act := extendActs env t ++ t.dirty.map fun e => Act.write e.1 e.2

theorem allActs_split (env : Env) (t : Txn) (root free : Nat) : allActs env t root free = pageActs env t ++ [.sync, .write (staleMeta env) (metaPage t.txnid root t.newLast free), .sync] := by
  unfold allActs pageActs metaActs writeActs; simp

theorem take_late {env : Env} {t : Txn} {root free i : Nat} (hi : (pageActs env t).length ≤ i) :
    ∃ T, (allActs env t root free).take i = pageActs env t ++ T ∧ (∀ a ∈ T, a = .sync ∨ a = .write (staleMeta env) (metaPage t.txnid root t.newLast free)) ∧
      (i ≤ (pageActs env t).length + 1 → ∀ a ∈ T, a = .sync) := by
  refine ⟨[Act.sync, .write (staleMeta env) (metaPage t.txnid root t.newLast free), .sync].take (i - (pageActs env t).length), ?_, ?_, ?_⟩
  · rw [allActs_split, List.take_append, List.take_of_length_le hi]
  · intro a ha
    have := List.mem_of_mem_take ha
    simp at this
    rcases this with h | h | h <;> simp [h]
  · intro h a ha
    have hx : i - (pageActs env t).length = 0 ∨ i - (pageActs env t).length = 1 := by omega
    rcases hx with hx | hx <;> rw [hx] at ha <;> simp at ha
    exact ha

/-- Meta pages are written over the two pages that are there. -/
theorem run_metas (T : List Act) : ∀ {env : Env} {s : Nat} {p : Page}, s < 2 → 2 ≤ env.filePages → (∀ a ∈ T, a = .sync ∨ a = .write s p) →
    (runActs env T).filePages = env.filePages ∧ (∀ x, x ≠ s → (runActs env T).file x = env.file x) ∧ ((∀ a ∈ T, a = .sync) → (runActs env T).file = env.file) := by
  induction T with
  | nil => intro env s p _ _ _; exact ⟨rfl, fun _ _ => rfl, fun _ => rfl⟩
  | cons a T ih =>
    intro env s p hs h2 ha
    rw [runActs_cons]
    rcases ha a List.mem_cons_self with rfl | rfl
    · obtain ⟨i1, i2, i3⟩ := ih (env := Act.run env .sync) hs h2 fun b hb => ha b (List.mem_cons_of_mem _ hb)
      exact ⟨i1, i2, fun h => i3 fun b hb => h b (List.mem_cons_of_mem _ hb)⟩
    · have e : Act.run env (.write s p) = { env with file := fun m => if m = s then p else env.file m } := Wear.write_in (by omega) p
      obtain ⟨i1, i2, -⟩ := ih (env := Act.run env (.write s p)) hs (by rw [e]; exact h2) fun b hb => ha b (List.mem_cons_of_mem _ hb)
      rw [e] at i1 i2 ⊢
      exact ⟨i1, fun x hx => (i2 x hx).trans (if_neg hx), fun h => by have := h _ List.mem_cons_self; cases this⟩

/-- When all pages have been written, the file shows them, whatever became of the meta page. -/
theorem late_file {env : Env} {t : Txn} {root free i : Nat} (hi : (pageActs env t).length ≤ i) (h2 : 2 ≤ env.filePages) :
    (runActs env ((allActs env t root free).take i)).filePages = (committed env t root free).filePages ∧
    (∀ x, x ≠ staleMeta env → (runActs env ((allActs env t root free).take i)).file x = (committed env t root free).file x) ∧
    (i ≤ (pageActs env t).length + 1 → (runActs env ((allActs env t root free).take i)).file = (runActs env (pageActs env t)).file) := by
  obtain ⟨T, e, hT, hT'⟩ := take_late (root := root) (free := free) hi
  have h2' : 2 ≤ (runActs env (pageActs env t)).filePages := Nat.le_trans h2 (runActs_kept _ _).file
  obtain ⟨a1, a2, a3⟩ := run_metas T (stale_lt env) h2' hT
  obtain ⟨b1, b2, -⟩ := run_metas [Act.sync, .write (staleMeta env) (metaPage t.txnid root t.newLast free), .sync] (env := runActs env (pageActs env t)) (p := metaPage t.txnid root t.newLast free) (stale_lt env) h2' (by simp)
  have ec : runActs env (allActs env t root free) = runActs (runActs env (pageActs env t)) [Act.sync, .write (staleMeta env) (metaPage t.txnid root t.newLast free), .sync] := by
    rw [allActs_split, runActs_append]
  rw [e, runActs_append]
  refine ⟨a1.trans ?_, fun x hx => (a2 x hx).trans ?_, fun h => a3 (hT' h)⟩
  · show _ = (runActs env (allActs env t root free)).filePages
    rw [ec]; exact b1.symm
  · show _ = (runActs env (allActs env t root free)).file x
    rw [ec]; exact (b2 x hx).symm

/-! ### Transactions that change something have freed a page -/

/-- A page was changed only if one was copied. -/
def Copied (t : Txn) : Prop := t.dirty ≠ [] → t.freed ≠ []

theorem closed_copied (env : Env) : Closed env fun t => t.freed ≠ [] := by
  refine ⟨fun _ _ _ h => h, ?_, fun _ h => h, fun _ _ h => h⟩
  intro t n r h ht
  obtain ⟨p, -, -, h | h⟩ := getWritable_cases h
  · rw [h.1]; exact ht
  · rw [h]; simp

theorem dirty_of_get {t : Txn} {n : Nat} (h : (t.getDirty n).isSome) : t.dirty ≠ [] := by
  intro h0
  unfold Txn.getDirty at h
  rw [h0] at h; cases h

theorem cow_frees {env : Env} {t : Txn} {n : Nat} {r : Nat × Txn} (h : cow env t n = .ok r) (ht : Copied t) : r.2.freed ≠ [] := by
  unfold cow at h
  split at h
  · rename_i q hq
    cases h; exact ht (dirty_of_get (n := n) (by rw [hq]; rfl))
  · obtain ⟨p, -, -, h | h⟩ := getWritable_cases h
    · rw [h.1]; exact ht (dirty_of_get h.2)
    · rw [h]; simp

theorem cowPath_frees {env : Env} {L : List Nat} {t : Txn} {r : Nat × Txn} (h : cowPath env t L = .ok r) (ht : Copied t) : r.2.freed ≠ [] := by
  cases L with
  | nil => cases h
  | cons n L =>
    rw [cowPath] at h
    obtain ⟨r1, h1, h⟩ := Res.bind_eq_ok.1 h
    obtain ⟨t2, h2, h⟩ := Res.bind_eq_ok.1 h
    cases h
    exact cowAll_inv (closed_copied env) L h2 (cow_frees h1 ht)

theorem putWith_frees {al : Alloc} {env : Env} (ha : AllocInv (fun t => t.freed ≠ []) al) {t : Txn} {key val : Bytes} {r : Status × Txn}
    (h : putWith al env t key val = .ok r) (h0 : t.root ≠ 0) (ht : Copied t) : Copied r.2 := by
  have hP := closed_copied env
  unfold putWith at h
  split at h
  · cases h; exact ht
  · obtain ⟨path, -, h⟩ := Res.bind_eq_ok.1 h
    split at h
    · cases h; exact ht
    · obtain ⟨leaf, -, h⟩ := Res.bind_eq_ok.1 h
      obtain ⟨f, -, h⟩ := Res.bind_eq_ok.1 h
      split at h
      · cases h; exact ht
      · obtain ⟨c, h1, h⟩ := Res.bind_eq_ok.1 h
        have hc := cowPath_frees h1 ht
        obtain ⟨p, -, h⟩ := Res.bind_eq_ok.1 h
        obtain ⟨d, -, h⟩ := Res.bind_eq_ok.1 h
        split at h
        · obtain ⟨q, -, h⟩ := Res.bind_eq_ok.1 h
          split at h
          · cases h; exact fun _ => hc
          · cases h; exact fun _ => hc
          · obtain ⟨x, h2, h⟩ := Res.bind_eq_ok.1 h
            cases h
            exact fun _ => withRoot_inv hP (pageSplit_inv hP ha h2 (hP.set c.2 c.1 d.2 hc))
        · cases h; exact fun _ => hc

theorem del_frees {env : Env} {t : Txn} {key : Bytes} {r : Status × Txn} (h : del env t key = .ok r) (ht : Copied t) : Copied r.2 := by
  unfold del at h
  split at h
  · cases h; exact ht
  · split at h
    · cases h; exact ht
    · obtain ⟨path, -, h⟩ := Res.bind_eq_ok.1 h
      split at h
      · cases h; exact ht
      · obtain ⟨leaf, -, h⟩ := Res.bind_eq_ok.1 h
        obtain ⟨f, -, h⟩ := Res.bind_eq_ok.1 h
        split at h
        · obtain ⟨c, h1, h⟩ := Res.bind_eq_ok.1 h
          have hc := cowPath_frees h1 ht
          simp only [] at h
          split at h
          · cases h; exact fun _ => hc
          · obtain ⟨d, -, h⟩ := Res.bind_eq_ok.1 h
            cases h; exact fun _ => hc
        · cases h; exact ht

theorem body_frees {env : Env} {fuel id fr r : Nat} {F : List Nat} {t t' : Txn} {m : KvMap} {ops : List KvOp}
    (H : Body env fuel id fr F t m ops t') : ∀ {h : Nat}, Writing env id fr r F t h m → t.root ≠ 0 → Copied t → Copied t' ∧ t'.root ≠ 0 := by
  induction H with
  | nil t m => intro h _ h0 ht; exact ⟨ht, h0⟩
  | @put t t1 t2 m k v ops hs hq hrun _ ih =>
    intro h hW h0 ht
    have hh : Height env t m h := ⟨hW.map, fun hn => absurd hn h0⟩
    obtain ⟨st, t'', h1, h2, h3⟩ := put_writing (fuel := fuel) hW (hs h hh) (hq.imp (fun x => x) (fun hq => hq h hh))
    rw [hrun] at h1; cases h1
    obtain ⟨h', -, hW', -, -, k1, k2⟩ := h3 rfl
    refine ih hW' ?_ (putWith_frees (alloc_inv (closed_copied env) _) hrun h0 ht)
    intro h0'
    have := k1 t.root (by unfold treePages; rw [if_neg h0]; exact self_mem_pagesOf _ _ _)
    unfold treePages at this
    rw [if_pos h0'] at this; cases this
  | @del t t1 t2 m k st ops hk hd hrun _ ih =>
    intro h hW h0 ht
    have hh : Height env t m h := ⟨hW.map, fun hn => absurd hn h0⟩
    obtain ⟨h1, h2⟩ := del_writing hW hk (hd h hh)
    by_cases hx : m k = none
    · rw [hrun] at h1
      cases h1 hx
      have : m.del k = m := by
        funext x; unfold KvMap.del; split
        · rename_i e; rw [e, hx]
        · rfl
      rw [this] at ih
      exact ih hW h0 ht
    · obtain ⟨t1', e, e1, -, k1, k2⟩ := h2 hx
      have hfr := del_frees hrun ht
      rw [hrun] at e; cases e
      refine ih e1 ?_ hfr
      intro h0'
      have : t.root ∈ treePages (getPage env t1) h t1.root := by
        rw [k1]; unfold treePages; rw [if_neg h0]; exact self_mem_pagesOf _ _ _
      unfold treePages at this
      rw [if_pos h0'] at this; cases this

end Verif.Db
