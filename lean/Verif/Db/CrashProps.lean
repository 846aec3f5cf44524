import Verif.Db.MetaProps

/-!
# Properties of commits that the machine does not finish (C51), and of snapshots (C52)
-/

namespace Verif.Db

open Verif.Page

/-! ## Lemmas -/

/-- The state depends only on the meta pages and the pages of the two trees. -/
theorem DbOk.frame {env env' : Env} {h hf : Nat} {m : KvMap} {fl : List (Bytes × Bytes)} (hdb : DbOk env h hf m fl)
    (hmeta : ∀ n < 2, env'.file n = env.file n)
    (hmain : ∀ x ∈ treePages (mapPage env) h (metaRoot env.liveMeta), env'.file x = env.file x)
    (hfree : ∀ x ∈ treePages (mapPage env) hf (metaFree env.liveMeta), env'.file x = env.file x)
    (h2 : env.filePages ≤ env'.filePages) (h3 : env'.mapPages = env.mapPages) (h4 : env'.live = env.live) :
    DbOk env' h hf m fl := by
  have hlm : env'.liveMeta = env.liveMeta := by
    unfold Env.liveMeta; rw [h4]; exact hmeta _ hdb.live
  have hstale : staleMeta env' = staleMeta env := by unfold staleMeta; rw [h4]
  have page : ∀ x, x ≤ metaLast env.liveMeta → env'.file x = env.file x → mapPage env' x = mapPage env x := by
    intro x hx he
    have := hdb.file
    have := hdb.map
    unfold mapPage
    rw [if_pos ⟨by omega, by omega⟩, if_pos ⟨by omega, by omega⟩, he]
  obtain ⟨m1, m2⟩ := isMap_frame (env' := env') (t' := readTxn env') hdb.main (show metaRoot env'.liveMeta = metaRoot env.liveMeta by rw [hlm])
    (show metaLast env.liveMeta ≤ metaLast env'.liveMeta by rw [hlm]; omega) (by
    intro x hx
    refine page x ?_ (hmain x hx)
    unfold treePages at hx
    by_cases hr : (readTxn env).root = 0
    · rw [if_pos hr] at hx; cases hx
    · rw [if_neg hr] at hx
      obtain ⟨l, hl, -⟩ := hdb.main
      rcases hl with ⟨hx, -⟩ | ⟨-, ht, -⟩
      · exact absurd hx hr
      · exact (ht.bound x hx).2)
  have m2' : treePages (mapPage env') h (metaRoot env'.liveMeta) = treePages (mapPage env) h (metaRoot env.liveMeta) := m2
  obtain ⟨f1, f2⟩ := freeDb_frame hdb.free (g' := mapPage env') fun x hx => page x (hdb.apart x hx).2.1 (hfree x hx)
  refine ⟨by rw [h4]; exact hdb.live, ?_, ?_, m1, ?_, ?_, hdb.depth, ?_, ?_, ?_, ?_, ?_, ?_⟩
  · intro n hn; rw [hmeta n hn]; exact hdb.valid n hn
  · rw [hstale, hmeta _ (stale_lt env), hlm]; exact hdb.newest
  · rw [m2']; exact hdb.low
  · rw [hlm]; exact f1
  · rw [m2', hlm, f2]; exact hdb.apart
  · rw [hlm]; exact hdb.ids
  · rw [hlm]; exact hdb.first
  · rw [hlm]; have := hdb.file; omega
  · rw [hlm, h3]; exact hdb.map
  · rw [h3]; exact hdb.cap

theorem synced_append (acts : List Act) : synced acts ++ (unsynced acts).reverse = acts := by
  unfold synced unsynced
  rw [← List.reverse_append, List.takeWhile_append_dropWhile, List.reverse_reverse]

theorem synced_sub {acts : List Act} {a : Act} (h : a ∈ synced acts) : a ∈ acts := by
  rw [← synced_append acts]; exact List.mem_append_left _ h

theorem unsynced_sub {acts : List Act} {a : Act} (h : a ∈ unsynced acts) : a ∈ acts := by
  rw [← synced_append acts]; exact List.mem_append_right _ (by simpa using h)

theorem synced_sync (acts : List Act) : synced (acts ++ [.sync]) = acts ++ [.sync] := by simp [synced, Act.isSync]

theorem unsynced_sync (acts : List Act) : unsynced (acts ++ [.sync]) = [] := by simp [unsynced, Act.isSync]

theorem synced_write (acts : List Act) (n : Nat) (p : Page) : synced (acts ++ [.sync] ++ [.write n p]) = acts ++ [.sync] := by
  simp [synced, Act.isSync]

theorem unsynced_write (acts : List Act) (n : Nat) (p : Page) : unsynced (acts ++ [.sync] ++ [.write n p]) = [.write n p] := by
  simp [unsynced, Act.isSync]

/-- A page that is not written is found as it was. -/
theorem crash_page {env : Env} {acts : List Act} {file : Nat → Page} (hc : Crash env acts file) {n : Nat} (hn : n < env.filePages)
    (hw : ∀ p, Act.write n p ∉ acts) : file n = env.file n := by
  have hu : (runActs env (synced acts)).file n = env.file n := untouched _ hn fun p hp => hw p (synced_sub hp)
  by_cases h2 : 2 ≤ n
  · funext b
    rcases hc.data n b h2 with h | ⟨p, hp, -⟩
    · rw [h, hu]
    · exact absurd (unsynced_sub hp) (hw p)
  · rcases hc.head n (by omega) with h | ⟨p, hp, -⟩
    · rw [h, hu]
    · exact absurd (unsynced_sub hp) (hw p)

/-! ## C51 -/

/-- C51: if no page of the committed state has been written when the machine stops (whatever else was),
the database opens again in the state before the transaction. -/
theorem crash_old {env : Env} {h hf : Nat} {m : KvMap} {fl : List (Bytes × Bytes)} (hdb : DbOk env h hf m fl) {acts : List Act}
    (hmeta : ∀ n < 2, ∀ p, Act.write n p ∉ acts)
    (hmain : ∀ x ∈ treePages (mapPage env) h (metaRoot env.liveMeta), ∀ p, Act.write x p ∉ acts)
    (hfree : ∀ x ∈ treePages (mapPage env) hf (metaFree env.liveMeta), ∀ p, Act.write x p ∉ acts)
    {file : Nat → Page} (hc : Crash env acts file) {fp : Nat} (hfp : env.filePages ≤ fp) :
    ∃ env', envOpen file fp env.mapPages = .ok (.ok env') ∧ env'.locked = false ∧ DbOk env' h hf m fl := by
  have h1 := hdb.first
  have h2 := hdb.file
  have hb : ∀ x ∈ treePages (mapPage env) h (metaRoot env.liveMeta), x < env.filePages := by
    intro x hx
    unfold treePages at hx
    by_cases hr : metaRoot env.liveMeta = 0
    · rw [if_pos hr] at hx; cases hx
    · rw [if_neg hr] at hx
      obtain ⟨l, hl, -⟩ := hdb.main
      rcases hl with ⟨hx, -⟩ | ⟨-, ht, -⟩
      · exact absurd hx hr
      · have : x ≤ metaLast env.liveMeta := (ht.bound x hx).2
        omega
  have hdb' : DbOk { env with file := file, filePages := fp } h hf m fl :=
    hdb.frame (fun n hn => crash_page hc (by omega) (hmeta n hn)) (fun x hx => crash_page hc (hb x hx) (hmain x hx))
      (fun x hx => crash_page hc (by have := (hdb.apart x hx).2.1; omega) (hfree x hx)) hfp rfl rfl
  obtain ⟨env', e1, e2, -, -, e3⟩ := reopen_keeps hdb' (mapPages := env.mapPages) (by
    show metaLast (file env.live) < _
    rw [crash_page hc (by have := hdb.live; omega) (hmeta _ hdb.live)]; exact hdb.map) hdb.cap
  exact ⟨env', e1, e2, e3⟩

/-- The file operations of a commit, in their order. -/
theorem commitActs_shape {al : Alloc} {env : Env} {t : Txn} {acts : List Act} (h : commitActs al env t = .ok (.ok acts)) :
    ∃ t2 fr ps, populate al env t = .ok (t2, .ok fr) ∧ remapAll (newPgno t2) t2.dirty = .ok ps ∧
      acts = (extendActs env t2 ++ ps.map fun e => Act.write e.1 e.2) ++ [.sync] ++
        [.write (staleMeta env) (metaPage t2.txnid (newPgno t2 t2.root) t2.newLast fr)] ++ [.sync] := by
  unfold commitActs at h
  obtain ⟨r, h1, h⟩ := Res.bind_eq_ok.1 h
  split at h
  · cases h
  · rename_i free hfree
    obtain ⟨ps, h2, h⟩ := Res.bind_eq_ok.1 h
    cases h
    refine ⟨r.1, free, ps, by rw [h1, ← hfree], h2, ?_⟩
    simp [writeActs, metaActs]

/-- C51: once the new meta page is on disk, the database opens again in the state after the
transaction. -/
theorem crash_new {env : Env} {h0 hf : Nat} {m0 : KvMap} {fl : List (Bytes × Bytes)} {t : Txn} {h : Nat} {m : KvMap} (fuel : Nat)
    (hdb : DbOk env h0 hf m0 fl) (hid : metaTxnid env.liveMeta + 1 < 2 ^ 64)
    (hW : Writing env (metaTxnid env.liveMeta + 1) (metaFree env.liveMeta) (metaRoot env.liveMeta) (offLimits env hf) t h m)
    (hroom : FreeRoom env (metaTxnid env.liveMeta + 1) (metaFree env.liveMeta) hf t) (hmap : t.newLast + 1 < env.mapPages)
    (hd : t.dirty ≠ []) {acts : List Act} (hacts : commitActs (alloc env (fuel + 2)) env t = .ok (.ok acts))
    {file : Nat → Page} (hsame : file = (runActs env acts).file) {fp : Nat} (hfp : (runActs env acts).filePages ≤ fp) :
    ∃ env' h' hf' fl', envOpen file fp env.mapPages = .ok (.ok env') ∧ env'.locked = false ∧ DbOk env' h' hf' m fl' := by
  obtain ⟨env1, h1, hf1, fl1, c1, c2, -, -, c3, -⟩ := commit_saves_partial fuel hdb hid hW hroom hmap
  have he : env1 = { runActs env acts with locked := false, live := staleMeta env } := by
    unfold commit commitWith at c1
    rw [if_neg hd, hacts, Res.ok_bind] at c1
    cases c1; rfl
  subst hsame
  have hdb' : DbOk { env1 with filePages := fp } h1 hf1 m fl1 :=
    c2.frame (fun _ _ => rfl) (fun _ _ => rfl) (fun _ _ => rfl) (by rw [he]; exact hfp) rfl rfl
  obtain ⟨env', e1, e2, -, -, e3⟩ := reopen_keeps hdb' (mapPages := env.mapPages) (by rw [← c3]; exact c2.map) hdb.cap
  refine ⟨env', h1, hf1, fl1, ?_, e2, e3⟩
  rw [← e1, he]

/-- C51 for transactions that write no page of the committed state (as when they begin on an empty
database): wherever the machine stops during the commit and whichever unsynced bytes reached
the disk, the database opens again in the state before or in the state after.  In general the
property is false: see `crash_loses_key`. -/
theorem crash_atomic_partial {env : Env} {h0 hf : Nat} {m0 : KvMap} {fl : List (Bytes × Bytes)} {t : Txn} {h : Nat} {m : KvMap} (fuel : Nat)
    (hdb : DbOk env h0 hf m0 fl) (hid : metaTxnid env.liveMeta + 1 < 2 ^ 64)
    (hW : Writing env (metaTxnid env.liveMeta + 1) (metaFree env.liveMeta) (metaRoot env.liveMeta) (offLimits env hf) t h m)
    (hmap : t.newLast + 1 < env.mapPages) (hd : t.dirty ≠ [])
    (hnew : ∀ x ∈ treePages (mapPage env) h0 (metaRoot env.liveMeta), t.getDirty x = none) (hfreed : t.freed = [])
    {acts : List Act} (hacts : commitActs (alloc env (fuel + 2)) env t = .ok (.ok acts)) (k : Nat)
    {file : Nat → Page} (hc : Crash env (acts.take k) file) {fp : Nat} (hfp : (runActs env (synced (acts.take k))).filePages ≤ fp) :
    ∃ env' h' hf' m' fl', envOpen file fp env.mapPages = .ok (.ok env') ∧ DbOk env' h' hf' m' fl' ∧ (m' = m0 ∨ m' = m) := by
  have hcl := hW.clean
  have hroom : FreeRoom env (metaTxnid env.liveMeta + 1) (metaFree env.liveMeta) hf t := ⟨fun h => absurd hfreed h, fun h => absurd hfreed h⟩
  obtain ⟨t2, fr, ps, s1, s2, s3⟩ := commitActs_shape hacts
  have ht2 : t2 = t ∧ fr = t.freeRoot := by
    unfold populate at s1
    rw [if_pos hfreed] at s1
    cases s1; exact ⟨rfl, rfl⟩
  obtain ⟨rfl, rfl⟩ := ht2
  rw [clean_remap hcl] at s2
  cases s2
  have hfp0 : env.filePages ≤ fp := Nat.le_trans (runActs_kept _ _).file hfp
  generalize hA : (extendActs env t2 ++ t2.dirty.map fun e => Act.write e.1 e.2) = A at s3
  have hAw : ∀ n p, Act.write n p ∈ A → t2.getDirty n = some p := by
    intro n p hp
    rw [← hA] at hp
    rcases List.mem_append.1 hp with hp | hp
    · exact absurd hp mem_extendActs
    · obtain ⟨e, he, h⟩ := List.mem_map.1 hp
      cases h
      exact (getDirty_mem hcl.nodup).2 he
  have hAm : ∀ n < 2, ∀ p, Act.write n p ∉ A := by
    intro n hn p hp
    have := (hcl.dirty n p (hAw n p hp)).1
    unfold offLimits at this
    simp at this; omega
  have hAf : ∀ x ∈ treePages (mapPage env) hf (metaFree env.liveMeta), ∀ p, Act.write x p ∉ A := by
    intro x hx p hp
    have := (hcl.dirty x p (hAw x p hp)).1
    unfold offLimits at this
    simp only [List.mem_cons, not_or] at this
    exact this.2.2 hx
  have hAt : ∀ x ∈ treePages (mapPage env) h0 (metaRoot env.liveMeta), ∀ p, Act.write x p ∉ A := by
    intro x hx p hp
    have := hAw x p hp
    rw [hnew x hx] at this; cases this
  generalize hM : metaPage t2.txnid (newPgno t2 t2.root) t2.newLast t2.freeRoot = M at s3
  have hlen : acts.length = A.length + 3 := by rw [s3]; simp
  have hsfp : 2 ≤ (runActs env (A ++ [.sync])).filePages := by
    have := (runActs_kept (A ++ [.sync]) env).file
    have := hdb.first; have := hdb.file; omega
  -- writing the meta page does not extend the file
  have hgrow : growFile (runActs env (A ++ [.sync])) (staleMeta env + 1) = runActs env (A ++ [.sync]) := by
    unfold growFile
    have := stale_lt env
    rw [if_neg (by omega)]
  have hrun : ∀ x, (runActs env acts).file x = if x = staleMeta env then M else (runActs env (A ++ [.sync])).file x := by
    intro x
    rw [s3, runActs_append, runActs_append]
    show (writeFile (runActs env (A ++ [.sync])) (staleMeta env) M).file x = _
    unfold writeFile
    rw [hgrow]
  have hrunp : (runActs env acts).filePages = (runActs env (A ++ [.sync])).filePages := by
    rw [s3, runActs_append, runActs_append]
    show (writeFile (runActs env (A ++ [.sync])) (staleMeta env) M).filePages = _
    unfold writeFile
    rw [hgrow]
  have old : ∀ {acts' : List Act}, (∀ a ∈ acts', a ∈ A ++ [Act.sync]) → Crash env acts' file →
      ∃ env' h' hf' m' fl', envOpen file fp env.mapPages = .ok (.ok env') ∧ DbOk env' h' hf' m' fl' ∧ (m' = m0 ∨ m' = m) := by
    intro acts' hsub hc'
    have sub : ∀ {n p}, Act.write n p ∈ acts' → Act.write n p ∈ A := by
      intro n p hp
      rcases List.mem_append.1 (hsub _ hp) with h | h
      · exact h
      · simp at h
    obtain ⟨env', e1, -, e2⟩ := crash_old hdb (fun n hn p hp => hAm n hn p (sub hp)) (fun x hx p hp => hAt x hx p (sub hp))
      (fun x hx p hp => hAf x hx p (sub hp)) hc' hfp0
    exact ⟨env', _, _, _, _, e1, e2, .inl rfl⟩
  have new : file = (runActs env acts).file → (runActs env acts).filePages ≤ fp →
      ∃ env' h' hf' m' fl', envOpen file fp env.mapPages = .ok (.ok env') ∧ DbOk env' h' hf' m' fl' ∧ (m' = m0 ∨ m' = m) := by
    intro hs hp
    obtain ⟨env', h', hf', fl', e1, -, e2⟩ := crash_new fuel hdb hid hW hroom hmap hd hacts hs hp
    exact ⟨env', _, _, _, _, e1, e2, .inr rfl⟩
  rcases (by omega : k ≤ A.length + 1 ∨ k = A.length + 2 ∨ A.length + 3 ≤ k) with hk | hk | hk
  · refine old (acts' := acts.take k) ?_ hc
    intro a ha
    rw [s3, List.append_assoc, List.take_append_of_le_length (by simp; omega)] at ha
    exact List.mem_of_mem_take ha
  · have htake : acts.take k = A ++ [.sync] ++ [.write (staleMeta env) M] := by
      rw [s3, List.take_append_of_le_length (by simp; omega), List.take_of_length_le (by simp; omega)]
    rw [htake] at hc hfp
    rw [synced_write] at hfp
    obtain ⟨c1, c2⟩ := hc
    rw [synced_write, unsynced_write] at c1 c2
    have hstale := stale_lt env
    rcases c2 (staleMeta env) hstale with hx | ⟨p, hp, hx⟩
    · refine old (acts' := A ++ [.sync]) (fun a ha => ha) ⟨?_, ?_⟩
      · rw [synced_sync, unsynced_sync]
        intro n b hn
        rcases c1 n b hn with h | ⟨p, hp, -⟩
        · exact .inl h
        · simp at hp; omega
      · rw [synced_sync, unsynced_sync]
        intro n hn
        rcases c2 n hn with h | ⟨p, hp, -⟩
        · exact .inl h
        · simp at hp
          obtain ⟨rfl, rfl⟩ := hp
          exact .inl hx
    · simp at hp
      subst hp
      refine new ?_ (by rw [hrunp]; exact hfp)
      funext n
      rw [hrun]
      split
      · rename_i e; rw [e]; exact hx
      · rename_i hne
        by_cases h2 : 2 ≤ n
        · funext b
          rcases c1 n b h2 with h | ⟨q, hq, -⟩
          · exact h
          · simp at hq; omega
        · rcases c2 n (by omega) with h | ⟨q, hq, -⟩
          · exact h
          · simp at hq; exact absurd hq.1 hne
  · rw [List.take_of_length_le (by omega)] at hc hfp
    obtain ⟨c1, c2⟩ := hc
    have hs : synced acts = acts := by rw [s3]; exact synced_sync _
    have hu : unsynced acts = [] := by rw [s3]; exact unsynced_sync _
    rw [hs, hu] at c1 c2
    rw [hs] at hfp
    refine new ?_ hfp
    funext n
    by_cases h2 : 2 ≤ n
    · funext b
      rcases c1 n b h2 with h | ⟨q, hq, -⟩
      · exact h
      · cases hq
    · rcases c2 n (by omega) with h | ⟨q, hq, -⟩
      · exact h
      · cases hq

theorem body_ops {env : Env} {fuel id fr : Nat} {F : List Nat} {t t' : Txn} {m : KvMap} {ops : List KvOp}
    (H : Body env fuel id fr F t m ops t') : Ops env t t' := by
  induction H with
  | nil => exact .nil _
  | put _ _ hrun _ ih => exact .put hrun ih
  | del _ _ hrun _ ih => exact .del hrun ih

/-- C51 for the first write transaction of a new database, whatever it does (each `put` meeting
`PutSafe`): after a crash anywhere in its commit the database opens again either empty or with
everything the transaction stored. -/
theorem crash_first_load_partial {mapPages fuel : Nat} {env env1 : Env} {t t' : Txn} {ops : List KvOp} (h2 : 2 ≤ mapPages) (hcap : mapPages ≤ 2 ^ 32)
    (hc : envCreate mapPages = .ok env) (hb : beginWrite env = some (env1, t)) (hops : Body env1 fuel 2 0 [0, 1] t (fun _ => none) ops t')
    (hmap : t'.newLast + 1 < mapPages) (hd : t'.dirty ≠ []) {acts : List Act}
    (hacts : commitActs (alloc env1 (fuel + 2)) env1 t' = .ok (.ok acts)) (k : Nat) {file : Nat → Page} (hcr : Crash env1 (acts.take k) file)
    {fp : Nat} (hfp : (runActs env1 (synced (acts.take k))).filePages ≤ fp) :
    ∃ env' h' hf' m' fl', envOpen file fp mapPages = .ok (.ok env') ∧ DbOk env' h' hf' m' fl' ∧
      (m' = (fun _ => none) ∨ m' = ops.foldl KvOp.apply fun _ => none) := by
  obtain ⟨env0, e1, e2, e3⟩ := create_empty h2 (by omega)
  rw [hc] at e1; cases e1
  have hc' := hc
  unfold envCreate at hc'
  rw [if_neg (by omega)] at hc'
  have hmp : env.mapPages = mapPages := by cases hc'; rfl
  have hid : metaTxnid env.liveMeta = 1 := by cases hc'; exact metaPage_txnid _ _ _ _
  have hfr : metaFree env.liveMeta = 0 := by cases hc'; exact metaPage_free _ _ _ _
  have hrt : metaRoot env.liveMeta = 0 := by cases hc'; exact metaPage_root _ _ _ _
  have hoff : offLimits env 0 = [0, 1] := by unfold offLimits treePages; rw [hfr]; rfl
  obtain ⟨env1', t1, b1, b2, -, b3⟩ := begin_writing e3 e2 (by rw [hid]; decide)
  rw [hb] at b1; cases b1
  rw [hid, hfr, hrt, hoff] at b3
  obtain ⟨h', hW⟩ := body_writing hops b3
  have hfreed0 : t.freed = [] := by
    unfold beginWrite at hb; split at hb
    · cases hb
    · cases hb; rfl
  have hpages : ∀ n p, mapPage env1 n = .ok p → 2 ^ 32 ≤ pgno p := by
    intro n p hp
    subst b2
    cases hc'
    unfold mapPage at hp
    split at hp
    · rename_i hn
      cases hp
      have : n = 0 ∨ n = 1 := by have := hn.2; simp only at this; omega
      rcases this with rfl | rfl
      · show 2 ^ 32 ≤ pgno (metaPage 0 0 1 0); decide +kernel
      · show 2 ^ 32 ≤ pgno (metaPage 1 0 1 0); decide +kernel
    · cases hp
  have hfr' : ∀ x ∈ t'.freed, 2 ^ 32 ≤ x ∧ (t'.getDirty x).isSome :=
    ops_inv (closed_freed env1 (2 ^ 32 ≤ ·) hpages) (body_ops hops) (by rw [hfreed0]; simp)
  have hfreed : t'.freed = [] := by
    cases hx : t'.freed with
    | nil => rfl
    | cons x l =>
      obtain ⟨g1, g2⟩ := hfr' x (by rw [hx]; exact List.mem_cons_self)
      obtain ⟨p, hp⟩ := Option.isSome_iff_exists.1 g2
      have := (hW.clean.dirty x p hp).2.2.2
      omega
  have hlm : env1.liveMeta = env.liveMeta := by rw [b2]; rfl
  have hmp1 : env1.mapPages = mapPages := by rw [b2]; exact hmp
  have hdb1 : DbOk env1 0 0 (fun _ => none) [] := e3.congr (by rw [b2]) (by rw [b2]) (by rw [b2]) (by rw [b2])
  have hoff1 : offLimits env1 0 = [0, 1] := by unfold offLimits treePages; rw [hlm, hfr]; rfl
  have := crash_atomic_partial fuel hdb1 (by rw [hlm, hid]; decide) (by rw [hlm, hid, hfr, hrt, hoff1]; exact hW) (by rw [hmp1]; exact hmap) hd
    (by rw [hlm, hrt]; simp [treePages]) hfreed hacts k hcr hfp
  rw [hmp1] at this
  exact this

end Verif.Db
