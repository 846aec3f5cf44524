import Verif.Db.ReclaimProps

/-!
# Every page recorded as free is in use: C55, C85

A page that is copied for writing keeps its number and its place in the file, and the same number is put on the list of freed
pages.  So the Free DB lists pages of the committed tree, and nothing else.
-/

namespace Verif.Db

open Verif.Page

/-- Every page recorded as free is a page of the committed tree. -/
structure Listed (env : Env) (h : Nat) (fl : List (Bytes × Bytes)) : Prop where
  eight : ∀ kv ∈ fl, kv.2.length % 8 = 0
  live : ∀ e ∈ recorded fl, e.2 ∈ treePages (mapPage env) h (metaRoot env.liveMeta)

theorem recorded_mem {fl : List (Bytes × Bytes)} {e : Nat × Nat} : e ∈ recorded fl ↔ ∃ kv ∈ fl, e.1 = leVal kv.1 ∧ e.2 ∈ pageNos kv.2 := by
  unfold recorded
  rw [List.mem_flatMap]
  constructor
  · rintro ⟨kv, h1, h2⟩
    obtain ⟨n, hn, rfl⟩ := List.mem_map.1 h2
    exact ⟨kv, h1, rfl, hn⟩
  · rintro ⟨kv, h1, h2, h3⟩
    exact ⟨kv, h1, List.mem_map.2 ⟨e.2, h3, by rw [← h2]⟩⟩

theorem isMap_bound {env : Env} {t : Txn} {h : Nat} {m : KvMap} (hm : IsMap env t h m) :
    ∀ x ∈ treePages (getPage env t) h t.root, x ≤ t.newLast := by
  intro x hx
  unfold treePages at hx
  by_cases h0 : t.root = 0
  · rw [if_pos h0] at hx; cases hx
  · rw [if_neg h0] at hx
    obtain ⟨l, hl, -⟩ := hm
    rcases hl with ⟨h1, -⟩ | ⟨-, ht, -⟩
    · exact absurd h1 h0
    · exact (ht.bound x hx).2

/-- A commit of a transaction all of whose freed pages are in its tree. -/
theorem commit_listed {env : Env} {h0 hf : Nat} {m0 : KvMap} {fl : List (Bytes × Bytes)} {t : Txn} {h : Nat} {m : KvMap} (fuel : Nat)
    (hdb : DbOk env h0 hf m0 fl) (hid : metaTxnid env.liveMeta + 1 < 2 ^ 64)
    (hW : Writing env (metaTxnid env.liveMeta + 1) (metaFree env.liveMeta) (metaRoot env.liveMeta) (offLimits env hf) t h m)
    (hroom : FreeRoom env (metaTxnid env.liveMeta + 1) (metaFree env.liveMeta) hf t) (hmap : t.newLast + 1 < env.mapPages)
    (h8 : ∀ kv ∈ fl, kv.2.length % 8 = 0) (hl : ∀ e ∈ recorded fl, e.2 ∈ treePages (getPage env t) h t.root)
    (hf : ∀ x ∈ t.freed, x ∈ treePages (getPage env t) h t.root) :
    ∃ env' h' hf' fl', commit env (fuel + 2) t = .ok (.success, env') ∧ DbOk env' h' hf' m fl' ∧ Listed env' h' fl' := by
  obtain ⟨env', h', hf', fl', a1, a2, -, -, -, -, -, a8, a9, a10, a11, -⟩ := commit_detail fuel hdb hid hW hroom hmap
  have htp : treePages (mapPage env') h' (metaRoot env'.liveMeta) = treePages (getPage env t) h t.root := by
    unfold treePages at a11 ⊢
    rw [a9]
    by_cases hr : t.root = 0
    · rw [if_pos hr, if_pos hr]
    · rw [if_neg hr] at a11 ⊢
      rw [if_neg hr, a10 hr]
      exact (frame h a11).2.1
  refine ⟨env', h', hf', fl', a1, a2, fun kv hkv => ?_, fun e he => ?_⟩
  · rcases a8 kv hkv with hx | rfl
    · exact h8 kv hx
    · show (t.freed.flatMap (le 8)).length % 8 = 0
      rw [flatMap_le_length]; omega
  · rw [htp]
    obtain ⟨kv, h1, h2, h3⟩ := recorded_mem.1 he
    rcases a8 kv h1 with hx | rfl
    · exact hl e (recorded_mem.2 ⟨kv, hx, h2, h3⟩)
    · rw [pageNos_written] at h3
      · exact hf _ h3
      · intro n hn
        have := isMap_bound hW.map n (hf n hn)
        have := hdb.cap
        omega

/-- The invariant over whole histories. -/
theorem run_listed {fuel : Nat} {env env' : Env} {m m' : KvMap} (H : Run fuel env m env' m') :
    ∀ {h hf : Nat} {fl : List (Bytes × Bytes)}, DbOk env h hf m fl → Listed env h fl → ∃ h' hf' fl', DbOk env' h' hf' m' fl' ∧ Listed env' h' fl' := by
  induction H with
  | nil env m => intro h hf fl hdb hl; exact ⟨_, _, _, hdb, hl⟩
  | @commit env env1 env2 env' t t' m m' ops hid hb hops hmap hc _ ih =>
    intro h hf fl hdb hli
    have hl : env.locked = false := by
      unfold beginWrite at hb
      split at hb
      · cases hb
      · rename_i h; simpa using h
    have hb' := hb
    obtain ⟨env1', t1, b1, b2, -, b3⟩ := begin_writing hdb hl hid
    rw [hb] at b1; cases b1
    obtain ⟨o1, o2⟩ := hops h hf fl hdb
    obtain ⟨h', hW, k1, k2⟩ := body_pages o1 b3
    subst b2
    have ht : t.freed = [] ∧ treePages (getPage { env with locked := true } t) h t.root = treePages (mapPage env) h (metaRoot env.liveMeta) := by
      unfold beginWrite at hb'
      rw [if_neg (by simp [hl])] at hb'
      simp only [Option.some.injEq, Prod.mk.injEq, true_and] at hb'
      subst hb'
      exact ⟨rfl, rfl⟩
    obtain ⟨env2', h2, hf2, fl2, c1, c2, c3⟩ := commit_listed fuel (env := { env with locked := true })
      (hdb.congr rfl rfl rfl rfl) hid hW ⟨o2.fresh, o2.leaf⟩ hmap hli.eight (fun e he => k1 _ (by rw [ht.2]; exact hli.live e he))
      (fun x hx => (k2 x hx).elim (fun hx => by rw [ht.1] at hx; cases hx) fun h => h)
    rw [hc] at c1; cases c1
    exact ih c2 c3
  | abort hb _ ih =>
    intro h hf fl hdb hl
    rw [abort_restores hb] at ih
    exact ih hdb hl
  | @reopen env env1 env' m m' mapPages hmap hcap ho _ ih =>
    intro h hf fl hdb hl
    obtain ⟨env1', o1, -, o3, o4, o2⟩ := reopen_keeps hdb hmap hcap
    rw [ho] at o1; cases o1
    refine ih o2 ⟨hl.eight, fun e he => ?_⟩
    have hx := hl.live e he
    have hlm : env1.liveMeta = env.liveMeta := by unfold Env.liveMeta; rw [o3, o4]
    have := (isMap_frame (env' := env1) (t' := readTxn env1) hdb.main (by show metaRoot env1.liveMeta = _; rw [hlm]; rfl)
      (by show metaLast env.liveMeta ≤ metaLast env1.liveMeta; rw [hlm]; exact Nat.le_refl _) (by
      intro x hx
      have hb := isMap_bound hdb.main x hx
      have hb : x ≤ metaLast env.liveMeta := hb
      have h1 := hdb.map
      have h2 := hdb.file
      have h3 := o2.map
      have h4 := o2.file
      rw [hlm] at h3 h4
      show mapPage env1 x = mapPage env x
      unfold mapPage
      rw [if_pos (by omega), if_pos (by omega), o4])).2
    have hx : e.2 ∈ treePages (getPage env (readTxn env)) h (readTxn env).root := hx
    rw [← this] at hx
    exact hx
  | readers rs _ ih =>
    intro h hf fl hdb hl
    exact ih (hdb.congr rfl rfl rfl rfl) ⟨hl.eight, hl.live⟩

/-! ## C55, C85 -/

/-- C55, C85: in every history from the creation of the database on (committed and aborted write transactions, readers, closing
and opening) that meets the conditions of `Run`, every page that the Free DB records as free is a page of the tree that holds
the data. -/
theorem recorded_pages_in_use {fuel mapPages : Nat} {env0 env : Env} {m : KvMap} (hc : envCreate mapPages = .ok env0) (hcap : mapPages < 2 ^ 52)
    (H : Run fuel env0 (fun _ => none) env m) :
    ∃ h hf fl, DbOk env h hf m fl ∧ (∀ kv ∈ fl, kv.2.length % 8 = 0) ∧
      ∀ e ∈ recorded fl, e.2 ∈ treePages (mapPage env) h (metaRoot env.liveMeta) := by
  have h2 : 2 ≤ mapPages := by
    unfold envCreate at hc
    split at hc
    · cases hc
    · omega
  obtain ⟨env0', e1, -, e2⟩ := create_empty h2 hcap
  rw [hc] at e1; cases e1
  obtain ⟨h, hf, fl, hdb, hl⟩ := run_listed H e2 ⟨by simp, by intro e he; cases he⟩
  exact ⟨h, hf, fl, hdb, hl.eight, hl.live⟩

/-- C55 is false after every such history, and not only in `live_page_handed_out`: the first page a write transaction allocates
either extends the file or is a page of the tree of that very transaction (and of every read transaction that begins now).  It
is one in use exactly when the Free DB has a page that may be taken. -/
theorem first_allocation_new_or_in_use {fuel fuel' mapPages : Nat} {env0 env env1 : Env} {t : Txn} {m : KvMap}
    (hc : envCreate mapPages = .ok env0) (hcap : mapPages < 2 ^ 52) (H : Run fuel env0 (fun _ => none) env m)
    (hb : beginWrite env = some (env1, t)) :
    ∃ h hf fl, DbOk env h hf m fl ∧ IsMap env1 t h m ∧ (hf < fuel' → fl.length < fuel' → ∃ n t', alloc env1 (fuel' + 1) t = .ok (n, t') ∧
      ((n = t.newLast + 1 ∧ ∀ e ∈ recorded fl, ¬ e.1 < limit env1 t) ∨
       (n ∈ treePages (getPage env1 t) h t.root ∧ n ∈ treePages (mapPage env) h (metaRoot env.liveMeta) ∧
        (∃ e ∈ recorded fl, e.1 < limit env1 t) ∧ t'.newLast = t.newLast ∧ IsMap env1 t' h m))) := by
  obtain ⟨h, hf, fl, hdb, h8, hl⟩ := recorded_pages_in_use hc hcap H
  have hvt : getPage env1 t = mapPage env ∧ t.root = metaRoot env.liveMeta ∧ t.newLast = metaLast env.liveMeta := by
    unfold beginWrite at hb
    split at hb
    · cases hb
    · simp only [Option.some.injEq, Prod.mk.injEq] at hb
      obtain ⟨rfl, rfl⟩ := hb
      exact ⟨rfl, rfl, rfl⟩
  refine ⟨h, hf, fl, hdb, ?_, fun hf1 hf2 => ?_⟩
  · exact (isMap_frame hdb.main hvt.2.1 (Nat.le_of_eq hvt.2.2.symm) fun x _ => by rw [hvt.1]; rfl).1
  · obtain ⟨a, b⟩ := first_allocation_partial hdb hb hf1 hf2 h8
    by_cases he : ∃ e ∈ recorded fl, e.1 < limit env1 t
    · obtain ⟨i, n, X, Y, t', fl', r1, r2, r3, r4, -, -, r5⟩ := a he
      have hn := hl (i, n) (by rw [r1]; simp)
      exact ⟨n, t', r3, .inr ⟨by rw [hvt.1, hvt.2.1]; exact hn, hn, he, r4, r5⟩⟩
    · have hne : ∀ e ∈ recorded fl, ¬ e.1 < limit env1 t := fun e h1 h2 => he ⟨e, h1, h2⟩
      exact ⟨_, _, b hne, .inl ⟨rfl, hne⟩⟩

/-- The conditions of `recorded_pages_in_use`, with a page recorded as free: two transactions of one `put` each. -/
example : ∃ env0 env m, envCreate 20 = .ok env0 ∧ Run 5 env0 (fun _ => none) env m ∧ m [97] = some [1] ∧ metaFree env.liveMeta ≠ 0 := by
  obtain ⟨env', h1, h2, h3⟩ := demo_run
  exact ⟨_, env', _, h1, h2, by decide, h3⟩

end Verif.Db
