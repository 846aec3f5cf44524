import Verif.Db.TxnExamples

/-!
# Properties of commits that report an error (C101)

A commit can be refused before it touches the file (the Free DB cannot take the freed pages), or one of its file operations can report an error.  The operations before
the failing one have been done.
-/

namespace Verif.Db

open Verif.Page

/-- C101: a commit that is refused before its file operations leaves everything as it was, and the lock is free. -/
theorem refused_commit_unchanged {al : Alloc} {fail : Option Nat} {env env' : Env} {t : Txn} {st : Status} (hd : t.dirty ≠ [])
    (hc : commitWith al fail env t = .ok (st, env')) (hr : ∀ acts, commitActs al env t ≠ .ok (.ok acts)) :
    st ≠ .success ∧ env' = { env with locked := false } := by
  rcases commitWith_cases hd hc with ⟨e, h1, rfl, h2⟩ | ⟨acts, _, h1, _⟩ | ⟨acts, h1, _⟩
  · exact ⟨commitActs_err h1, h2⟩
  · exact absurd h1 (hr acts)
  · exact absurd h1 (hr acts)

/-- C101 as far as it holds: if the file operations done before the error have written neither a meta page nor a page of the committed state, the database is as it was, for
the same handle and after it is opened again. -/
theorem failed_commit_partial {al : Alloc} {k : Nat} {env env' : Env} {t : Txn} {st : Status} {h hf : Nat} {m : KvMap} {fl : List (Bytes × Bytes)}
    (hdb : DbOk env h hf m fl) {acts : List Act} (hacts : commitActs al env t = .ok (.ok acts)) (hk : k < acts.length) (hd : t.dirty ≠ [])
    (hc : commitWith al (some k) env t = .ok (st, env')) (hlow : ∀ n < 2, ∀ p, Act.write n p ∉ acts.take k)
    (hmain : ∀ x ∈ treePages (mapPage env) h (metaRoot env.liveMeta), ∀ p, Act.write x p ∉ acts.take k)
    (hfree : ∀ x ∈ treePages (mapPage env) hf (metaFree env.liveMeta), ∀ p, Act.write x p ∉ acts.take k) :
    st = .general ∧ env'.locked = false ∧ DbOk env' h hf m fl ∧
      ∃ env'', envOpen env'.file env'.filePages env'.mapPages = .ok (.ok env'') ∧ DbOk env'' h hf m fl := by
  unfold commitWith at hc
  rw [if_neg hd, hacts, Res.ok_bind] at hc
  simp only [if_pos hk] at hc
  cases hc
  have h1 := hdb.first
  have h2 := hdb.file
  have hkept := runActs_kept (acts.take k) env
  have hb : ∀ x ∈ treePages (mapPage env) h (metaRoot env.liveMeta), x < env.filePages := by
    intro x hx
    unfold treePages at hx
    by_cases hr : metaRoot env.liveMeta = 0
    · rw [if_pos hr] at hx; cases hx
    · rw [if_neg hr] at hx
      obtain ⟨l, hl, -⟩ := hdb.main
      rcases hl with ⟨hx, -⟩ | ⟨-, ht, -⟩
      · exact absurd hx hr
      · have : x ≤ metaLast env.liveMeta := (ht.bound x hx).2
        omega
  have hdb' : DbOk { runActs env (acts.take k) with locked := false } h hf m fl :=
    hdb.frame (fun n hn => untouched _ (by omega) (hlow n hn)) (fun x hx => untouched _ (hb x hx) (hmain x hx))
      (fun x hx => untouched _ (by have := (hdb.apart x hx).2.1; omega) (hfree x hx)) hkept.file hkept.map hkept.live
  obtain ⟨env'', e1, -, -, -, e3⟩ := reopen_keeps hdb' (mapPages := (runActs env (acts.take k)).mapPages) hdb'.map hdb'.cap
  exact ⟨rfl, rfl, hdb', env'', e1, e3⟩

/-- C101 for transactions that write no page of the committed state (as when they begin on an empty database): if any operation but the last reports an error, the commit
fails and the database is as it was, for the same handle and after it is opened again; the transaction can be repeated. -/
theorem failed_fresh_commit_partial {env env' : Env} {h0 hf : Nat} {m0 : KvMap} {fl : List (Bytes × Bytes)} {t : Txn} {h : Nat} {m : KvMap} {st : Status} (fuel : Nat)
    (hdb : DbOk env h0 hf m0 fl)
    (hW : Writing env (metaTxnid env.liveMeta + 1) (metaFree env.liveMeta) (metaRoot env.liveMeta) (offLimits env hf) t h m) (hd : t.dirty ≠ [])
    (hnew : ∀ x ∈ treePages (mapPage env) h0 (metaRoot env.liveMeta), t.getDirty x = none) (hfreed : t.freed = [])
    {acts : List Act} (hacts : commitActs (alloc env (fuel + 2)) env t = .ok (.ok acts)) {k : Nat} (hk : k + 1 < acts.length)
    (hc : commitWith (alloc env (fuel + 2)) (some k) env t = .ok (st, env')) :
    st = .general ∧ env'.locked = false ∧ DbOk env' h0 hf m0 fl ∧
      ∃ env'', envOpen env'.file env'.filePages env'.mapPages = .ok (.ok env'') ∧ DbOk env'' h0 hf m0 fl := by
  have hcl := hW.clean
  obtain ⟨t2, fr, ps, s1, s2, s3⟩ := commitActs_shape hacts
  have ht2 : t2 = t ∧ fr = t.freeRoot := by
    unfold populate at s1
    rw [if_pos hfreed] at s1
    cases s1; exact ⟨rfl, rfl⟩
  obtain ⟨rfl, rfl⟩ := ht2
  rw [clean_remap hcl] at s2
  cases s2
  have hw : ∀ n p, Act.write n p ∈ acts.take k → t2.getDirty n = some p := by
    intro n p hp
    rw [s3, List.append_assoc _ [Act.write _ _], List.take_append_of_le_length (by rw [s3] at hk; simp at hk ⊢; omega)] at hp
    have hp := List.mem_of_mem_take hp
    simp only [List.mem_append, List.mem_map, List.mem_singleton] at hp
    rcases hp with (hp | ⟨e, he, hx⟩) | hp
    · exact absurd hp mem_extendActs
    · cases hx; exact (getDirty_mem hcl.nodup).2 he
    · cases hp
  refine failed_commit_partial hdb hacts (by omega) hd hc ?_ ?_ ?_
  · intro n hn p hp
    have := (hcl.dirty n p (hw n p hp)).1
    unfold offLimits at this
    simp at this; omega
  · intro x hx p hp
    have := hw x p hp
    rw [hnew x hx] at this; cases this
  · intro x hx p hp
    have := (hcl.dirty x p (hw x p hp)).1
    unfold offLimits at this
    simp only [List.mem_cons, not_or] at this
    exact this.2.2 hx

/-- C101 is false for every transaction that changes something: if the last operation of its commit, the `fsync` after the meta page, reports an error, the commit fails, and
whoever opens the file finds the transaction done. -/
theorem failed_sync_applied {env : Env} {h0 hf : Nat} {m0 : KvMap} {fl : List (Bytes × Bytes)} {t : Txn} {h : Nat} {m : KvMap} (fuel : Nat)
    (hdb : DbOk env h0 hf m0 fl) (hid : metaTxnid env.liveMeta + 1 < 2 ^ 64)
    (hW : Writing env (metaTxnid env.liveMeta + 1) (metaFree env.liveMeta) (metaRoot env.liveMeta) (offLimits env hf) t h m)
    (hroom : FreeRoom env (metaTxnid env.liveMeta + 1) (metaFree env.liveMeta) hf t) (hmap : t.newLast + 1 < env.mapPages)
    (hd : t.dirty ≠ []) {acts : List Act} (hacts : commitActs (alloc env (fuel + 2)) env t = .ok (.ok acts)) :
    ∃ env' env'' h' hf' fl', commitWith (alloc env (fuel + 2)) (some (acts.length - 1)) env t = .ok (.general, env') ∧
      envOpen env'.file env'.filePages env'.mapPages = .ok (.ok env'') ∧ DbOk env'' h' hf' m fl' := by
  obtain ⟨t2, fr, ps, -, -, s3⟩ := commitActs_shape hacts
  have hlen : acts.length - 1 < acts.length := by rw [s3]; simp
  have hrun : runActs env (acts.take (acts.length - 1)) = runActs env acts := by
    rw [s3]
    simp only [List.length_append, List.length_singleton, Nat.add_sub_cancel]
    rw [List.take_left' (by simp; omega), runActs_append _ _ [.sync]]
    rfl
  obtain ⟨env'', h', hf', fl', e1, -, e2⟩ := crash_new fuel hdb hid hW hroom hmap hd hacts rfl (Nat.le_refl _)
  refine ⟨{ runActs env (acts.take (acts.length - 1)) with locked := false }, env'', h', hf', fl', ?_, ?_, e2⟩
  · unfold commitWith
    rw [if_neg hd, hacts, Res.ok_bind]
    simp only [if_pos hlen]
  · show envOpen (runActs env (acts.take (acts.length - 1))).file (runActs env (acts.take (acts.length - 1))).filePages (runActs env (acts.take (acts.length - 1))).mapPages = _
    rw [hrun, (runActs_kept acts env).map]
    exact e1

/-- C101 is false of the handle as well, for every transaction that changes pages in place (no new page and the same root, as when values fit into their leaves): if one
of the last three operations of its commit (the `fsync` after the pages, the write of the meta page, its `fsync`) reports an error, the commit fails, and transactions that begin later find the transaction done. -/
theorem failed_commit_visible {env env' : Env} {h0 hf : Nat} {m0 : KvMap} {fl : List (Bytes × Bytes)} {t : Txn} {h : Nat} {m : KvMap} {st : Status} (fuel : Nat)
    (hdb : DbOk env h0 hf m0 fl) (hid : metaTxnid env.liveMeta + 1 < 2 ^ 64)
    (hW : Writing env (metaTxnid env.liveMeta + 1) (metaFree env.liveMeta) (metaRoot env.liveMeta) (offLimits env hf) t h m)
    (hroom : FreeRoom env (metaTxnid env.liveMeta + 1) (metaFree env.liveMeta) hf t) (hmap : t.newLast + 1 < env.mapPages)
    (hd : t.dirty ≠ []) (hroot : t.root = metaRoot env.liveMeta) (hlast : t.newLast = metaLast env.liveMeta)
    {acts : List Act} (hacts : commitActs (alloc env (fuel + 2)) env t = .ok (.ok acts)) {k : Nat} (hk : k < acts.length) (hk3 : acts.length ≤ k + 3)
    (hc : commitWith (alloc env (fuel + 2)) (some k) env t = .ok (st, env')) :
    st = .general ∧ ∀ pid tid env1 r key fuel', beginRead env' pid tid = .ok (env1, r) → key.length < 65536 → h < fuel' →
      get env1 r fuel' key = .ok (m.answer key) := by
  obtain ⟨envc, hh, hhf, fl', c1, -, -, -, c5, -, -, -, -, -, c11, -, -⟩ := commit_detail fuel hdb hid hW hroom hmap
  have hec : envc = { runActs env acts with locked := false, live := staleMeta env } := by
    unfold commit commitWith at c1
    rw [if_neg hd, hacts, Res.ok_bind] at c1
    cases c1; rfl
  unfold commitWith at hc
  rw [if_neg hd, hacts, Res.ok_bind] at hc
  simp only [if_pos hk] at hc
  cases hc
  refine ⟨rfl, ?_⟩
  obtain ⟨t2, fr, ps, s1, s2, s3⟩ := commitActs_shape hacts
  have h1 := hdb.first
  have h2 := hdb.file
  have h3 := hdb.map
  -- the rest writes nothing but the meta page
  have hdrop : ∀ n p, Act.write n p ∈ acts.drop k → n < 2 := by
    intro n p hp
    rw [s3, List.append_assoc, List.append_assoc, List.drop_append] at hp
    rw [s3] at hk3
    rcases List.mem_append.1 hp with hp | hp
    · rw [List.drop_eq_nil_of_le (by simp at hk3 ⊢; omega)] at hp
      cases hp
    · have := List.mem_of_mem_drop hp
      simp at this
      have hs := stale_lt env
      omega
  have hkept := runActs_kept (acts.take k) env
  have hsplit : runActs env acts = runActs (runActs env (acts.take k)) (acts.drop k) := by
    rw [← runActs_append, List.take_append_drop]
  have hpage : ∀ x, 2 ≤ x → x ≤ metaLast env.liveMeta → (runActs env (acts.take k)).file x = (runActs env acts).file x := by
    intro x hx hx'
    rw [hsplit]
    refine (untouched _ (by have := hkept.file; omega) fun p hp => ?_).symm
    have := hdrop x p hp
    omega
  -- the live meta page is not written
  have hlive : (runActs env (acts.take k)).file env.live = env.file env.live := by
    refine untouched _ (by have := hdb.live; omega) fun p hp => ?_
    have hp := List.mem_of_mem_take hp
    obtain ⟨t2', fr', hf', fl2, p1, p2, -⟩ := populate_spec (al := alloc env (fuel + 2)) (M := []) rfl hW.clean (by simp) hdb.free
      (fun x hx => (hdb.apart x hx).1) hdb.depth hid (fun kv hkv => by
        obtain ⟨i, hi, e⟩ := hdb.ids kv hkv
        exact ⟨i, by omega, e⟩) (fun h0 t ht => alloc_quiet (.none h0) ht) hroom (by have := hdb.cap; omega)
    rw [s1] at p1
    cases p1
    rw [clean_remap p2] at s2
    cases s2
    rw [s3] at hp
    simp only [List.mem_append, List.mem_map, List.mem_singleton] at hp
    rcases hp with (((hp | ⟨e, he, hx⟩) | hp) | hp) | hp
    · exact mem_extendActs hp
    · obtain ⟨hx, -⟩ := Act.write.inj hx
      have hn := (p2.dirty _ _ ((getDirty_mem p2.nodup).2 he)).1
      have := hdb.live
      simp only [List.mem_cons, List.not_mem_nil, or_false, not_or] at hn
      omega
    · cases hp
    · exact stale_ne env (Act.write.inj hp).1.symm
    · cases hp
  have hlm : ({ runActs env (acts.take k) with locked := false } : Env).liveMeta = env.liveMeta := by
    show (runActs env (acts.take k)).file (runActs env (acts.take k)).live = env.file env.live
    rw [hkept.live]; exact hlive
  intro pid tid env1 r key fuel' hb hkey hfu
  unfold beginRead at hb
  split at hb
  · cases hb
  · rename_i rs hrs
    cases hb
    have := isMap_frame (env' := { runActs env (acts.take k) with locked := false, readers := rs })
      (t' := readTxn { runActs env (acts.take k) with locked := false }) hW.map
      (by show metaRoot _ = _; rw [hlm]; exact hroot.symm) (by show _ ≤ metaLast _; rw [hlm]; exact Nat.le_of_eq hlast) (by
      intro x hx
      have hb : 2 ≤ x ∧ x ≤ metaLast env.liveMeta := by
        have hx' := hx
        unfold treePages at hx
        by_cases hr : t.root = 0
        · rw [if_pos hr] at hx; cases hx
        · rw [if_neg hr] at hx
          have ha := hW.apart hr x hx
          obtain ⟨l, hl, -⟩ := hW.map
          rcases hl with ⟨hx, -⟩ | ⟨-, ht, -⟩
          · exact absurd hx hr
          · refine ⟨?_, by have := (ht.bound x hx).2; omega⟩
            unfold offLimits at ha
            simp at ha; omega
      have hm := c11 x hx
      rw [← hm, hec]
      show mapPage _ x = mapPage _ x
      unfold mapPage
      have a1 : (runActs env (acts.take k)).mapPages = env.mapPages := hkept.map
      have a2 : (runActs env acts).mapPages = env.mapPages := (runActs_kept _ _).map
      have a3 := hkept.file
      have a4 := (runActs_kept acts env).file
      rw [if_pos ⟨by show x < (runActs env (acts.take k)).mapPages; omega, by show x < (runActs env (acts.take k)).filePages; omega⟩,
        if_pos ⟨by show x < (runActs env acts).mapPages; omega, by show x < (runActs env acts).filePages; omega⟩]
      exact congrArg _ (hpage x hb.1 hb.2))
    exact get_answers this.1 hkey hfu

/-! ## The conditions can be met -/

/-- A database with the key `a` and a transaction that has stored `b` beside it: the conditions of `failed_sync_applied` and `failed_commit_visible`. -/
example : ∃ env h0 hf fl t h acts, DbOk env h0 hf (KvMap.put (fun _ => none) [97] [1]) fl ∧ metaTxnid env.liveMeta + 1 < 2 ^ 64 ∧
    Writing env (metaTxnid env.liveMeta + 1) (metaFree env.liveMeta) (metaRoot env.liveMeta) (offLimits env hf) t h
      (KvMap.put (KvMap.put (fun _ => none) [97] [1]) [98] [2]) ∧
    FreeRoom env (metaTxnid env.liveMeta + 1) (metaFree env.liveMeta) hf t ∧ t.newLast + 1 < env.mapPages ∧ t.dirty ≠ [] ∧
    t.root = metaRoot env.liveMeta ∧ t.newLast = metaLast env.liveMeta ∧ commitActs (alloc env 7) env t = .ok (.ok acts) := by
  have g1 : goodPut newDb [97] [1] = true := by decide +kernel
  have g2 : (metaTxnid (afterPut newDb [97] [1]).liveMeta == 2 && metaFree (afterPut newDb [97] [1]).liveMeta == 0 && !(afterPut newDb [97] [1]).locked &&
      match beginWrite (afterPut newDb [97] [1]) with
      | none => false
      | some (env1, t) => decide (t.newLast + 2 < 2 ^ 64) && Res.holds (getPage env1 t t.root) (fun p => isLeaf p && decide (4 + 1 + 1 + 2 ≤ room p)) &&
        Res.holds (put env1 7 t [98] [2]) fun r => r.1 == .success && decide (r.2.newLast + 1 < env1.mapPages) && decide (8 * r.2.freed.length + 14 ≤ 4078) &&
          !r.2.dirty.isEmpty && r.2.root == metaRoot env1.liveMeta && r.2.newLast == metaLast env1.liveMeta &&
          Res.holds (commitActs (alloc env1 7) env1 r.2) fun c => match c with | .error _ => false | .ok _ => true) = true := by decide +kernel
  obtain ⟨env0, e1, -, e2⟩ := create_empty (mapPages := 20) (by decide) (by decide)
  have e0 : envCreate 20 = .ok newDb := rfl
  rw [e0] at e1; cases e1
  obtain ⟨h0, hf, fl, hdb⟩ := run_refines_partial (run_goodPut g1 (by decide) rfl (.nil _ _)) e2
  generalize afterPut newDb [97] [1] = e at *
  simp only [Bool.and_eq_true, beq_iff_eq, Bool.not_eq_true'] at g2
  obtain ⟨⟨⟨k1, k2⟩, k3⟩, k4⟩ := g2
  obtain ⟨env1, t, b1, b2, -, b3⟩ := begin_writing hdb k3 (by rw [k1]; decide)
  rw [b1] at k4
  simp only [Bool.and_eq_true, decide_eq_true_eq] at k4
  obtain ⟨⟨k5, k6⟩, k7⟩ := k4
  obtain ⟨p, l1, l2⟩ := Res.holds_iff k6
  simp only [Bool.and_eq_true, decide_eq_true_eq] at l2
  obtain ⟨⟨st, t'⟩, q1, q2⟩ := Res.holds_iff k7
  simp only [Bool.and_eq_true, decide_eq_true_eq, beq_iff_eq, Bool.not_eq_true'] at q2
  obtain ⟨⟨⟨⟨⟨⟨rfl, q3⟩, q4⟩, q5⟩, q6⟩, q7⟩, q8⟩ := q2
  obtain ⟨c, r1, r2⟩ := Res.holds_iff q8
  cases c with
  | error e => cases r2
  | ok acts =>
    have hb : Body env1 5 (metaTxnid e.liveMeta + 1) (metaFree e.liveMeta) (offLimits e hf) t (KvMap.put (fun _ => none) [97] [1]) [.put [98] [2]] t' :=
      body_one k2 (by decide) k5 rfl (.inr ⟨p, l1, l2.1, l2.2⟩) q1
    obtain ⟨h', hW⟩ := body_writing hb b3
    have hlm : env1.liveMeta = e.liveMeta := by rw [b2]; rfl
    have hoff : offLimits env1 hf = offLimits e hf := by rw [b2]; rfl
    have hdb1 : DbOk env1 h0 hf _ fl := hdb.congr (by rw [b2]) (by rw [b2]) (by rw [b2]) (by rw [b2])
    refine ⟨env1, h0, hf, fl, t', h', acts, hdb1, by rw [hlm, k1]; decide, by rw [hlm, hoff]; exact hW, ⟨fun _ _ => q4, fun _ hn => ?_⟩, q3, ?_, q6, q7, r1⟩
    · rw [hlm] at hn; exact absurd k2 hn
    · intro hn; rw [hn] at q5; cases q5

/-- A new database and a transaction that has stored `a`: the conditions of `failed_fresh_commit_partial`. -/
example : ∃ env h0 hf fl t h acts, DbOk env h0 hf (fun _ => none) fl ∧
    Writing env (metaTxnid env.liveMeta + 1) (metaFree env.liveMeta) (metaRoot env.liveMeta) (offLimits env hf) t h (KvMap.put (fun _ => none) [97] [1]) ∧
    t.dirty ≠ [] ∧ (∀ x ∈ treePages (mapPage env) h0 (metaRoot env.liveMeta), t.getDirty x = none) ∧ t.freed = [] ∧
    commitActs (alloc env 7) env t = .ok (.ok acts) ∧ acts.length = 6 := by
  have g2 : (match beginWrite newDb with
      | none => false
      | some (env1, t) => decide (t.newLast + 2 < 2 ^ 64) && t.root == 0 && metaRoot env1.liveMeta == 0 &&
        Res.holds (put env1 7 t [97] [1]) fun r => r.1 == .success && r.2.freed.isEmpty &&
          !r.2.dirty.isEmpty && Res.holds (commitActs (alloc env1 7) env1 r.2) fun c => match c with | .error _ => false | .ok a => decide (a.length = 6)) = true := by
    decide +kernel
  obtain ⟨env0, e1, e3, e2⟩ := create_empty (mapPages := 20) (by decide) (by decide)
  have e0 : envCreate 20 = .ok newDb := rfl
  rw [e0] at e1; cases e1
  have k1 : metaTxnid newDb.liveMeta = 1 := metaPage_txnid _ _ _ _
  have k2 : metaFree newDb.liveMeta = 0 := metaPage_free _ _ _ _
  obtain ⟨env1, t, b1, b2, -, b3⟩ := begin_writing e2 e3 (by rw [k1]; decide)
  rw [b1] at g2
  generalize newDb = e at *
  simp only [Bool.and_eq_true, decide_eq_true_eq, beq_iff_eq] at g2
  obtain ⟨⟨⟨k5, k6⟩, k8⟩, k7⟩ := g2
  obtain ⟨⟨st, t'⟩, q1, q2⟩ := Res.holds_iff k7
  simp only [Bool.and_eq_true, beq_iff_eq, Bool.not_eq_true', List.isEmpty_iff] at q2
  obtain ⟨⟨⟨rfl, q3⟩, q5⟩, q8⟩ := q2
  obtain ⟨c, r1, r2⟩ := Res.holds_iff q8
  cases c with
  | error e => cases r2
  | ok acts =>
    have hb : Body env1 5 (metaTxnid e.liveMeta + 1) (metaFree e.liveMeta) (offLimits e 0) t (fun _ => none) [.put [97] [1]] t' :=
      body_one k2 (by decide) k5 rfl (.inl k6) q1
    obtain ⟨h', hW⟩ := body_writing hb b3
    have hlm : env1.liveMeta = e.liveMeta := by rw [b2]; rfl
    have hoff : offLimits env1 0 = offLimits e 0 := by rw [b2]; rfl
    have hdb1 : DbOk env1 0 0 _ [] := e2.congr (by rw [b2]) (by rw [b2]) (by rw [b2]) (by rw [b2])
    refine ⟨env1, 0, 0, [], t', h', acts, hdb1, by rw [hlm, hoff]; exact hW, ?_, ?_, q3, r1, of_decide_eq_true r2⟩
    · intro hn; rw [hn] at q5; cases q5
    · rw [k8]; intro x hx; simp [treePages] at hx

end Verif.Db
