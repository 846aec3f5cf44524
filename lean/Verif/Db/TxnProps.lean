import Verif.Db.Commit

/-!
# Properties of transactions (C49-C52, C56)
-/

namespace Verif.Db

open Verif.Page

/-! ## Lemmas about states -/

theorem getPage_readTxn (env : Env) : getPage env (readTxn env) = mapPage env := rfl

theorem wft_height {g : View} (h : Nat) : ∀ {h' n : Nat} {lo hi lo' hi' : Option Bytes}, WFT g h lo hi n → WFT g h' lo' hi' n → h = h' := by
  induction h with
  | zero =>
    intro h' n lo hi lo' hi' a b
    cases h' with
    | zero => rfl
    | succ h' =>
      obtain ⟨p, a1, -, -, a2, -⟩ := a
      obtain ⟨q, b1, -, -, b2, -⟩ := b
      rw [a1] at b1; cases b1; rw [a2] at b2; cases b2
  | succ h ih =>
    intro h' n lo hi lo' hi' a b
    cases h' with
    | zero =>
      obtain ⟨p, a1, -, -, a2, -⟩ := a
      obtain ⟨q, b1, -, -, b2, -⟩ := b
      rw [a1] at b1; cases b1; rw [a2] at b2; cases b2
    | succ h' =>
      obtain ⟨p, a1, -, -, -, -, a2⟩ := a
      obtain ⟨q, b1, -, -, -, -, b2⟩ := b
      rw [a1] at b1; cases b1
      have first : ∀ {R : Option Bytes → Option Bytes → Nat → Prop} {lo hi k c} {l : List (Bytes × Nat)},
          Kids R lo hi ((k, c) :: l) → ∃ u v, R u v c := by
        intro R lo hi k c l hk
        cases l with
        | nil => exact ⟨_, _, hk⟩
        | cons e l => exact ⟨_, _, hk.1⟩
      cases he : entries p with
      | nil => rw [he] at a2; exact a2.elim
      | cons e l =>
        rw [he] at a2 b2
        obtain ⟨u, v, x⟩ := first a2
        obtain ⟨u', v', y⟩ := first b2
        rw [ih x y]

/-- The map a transaction holds depends on the view and the root only. -/
theorem isMap_unique {env env' : Env} {t t' : Txn} {h h' : Nat} {m m' : KvMap} (hm : IsMap env t h m) (hm' : IsMap env' t' h' m')
    (hv : getPage env t = getPage env' t') (hr : t.root = t'.root) : m = m' := by
  obtain ⟨l, hl, hlm⟩ := hm
  obtain ⟨l', hl', hlm'⟩ := hm'
  have : l = l' := by
    rcases hl with ⟨h0, rfl⟩ | ⟨h0, ht, rfl⟩
    · rcases hl' with ⟨-, rfl⟩ | ⟨h1, -⟩
      · rfl
      · exact absurd (hr ▸ h0) h1
    · rcases hl' with ⟨h1, -⟩ | ⟨h1, ht', rfl⟩
      · exact absurd (hr.trans h1) h0
      · have e := ht'.wft
        rw [← hv, ← hr] at e
        rw [wft_height h ht.wft e, hv, hr]
  funext k
  rw [← hlm, ← hlm', this]

/-- The map of a transaction in another environment that shows the same pages. -/
theorem isMap_frame {env env' : Env} {t t' : Txn} {h : Nat} {m : KvMap} (hm : IsMap env t h m) (hr : t'.root = t.root)
    (hl : t.newLast ≤ t'.newLast)
    (hv : ∀ x ∈ treePages (getPage env t) h t.root, getPage env' t' x = getPage env t x) :
    IsMap env' t' h m ∧ treePages (getPage env' t') h t'.root = treePages (getPage env t) h t.root := by
  obtain ⟨l, hh, hlm⟩ := hm
  rcases hh with ⟨h0, rfl⟩ | ⟨h0, ht, rfl⟩
  · exact ⟨⟨[], .inl ⟨hr.trans h0, rfl⟩, hlm⟩, by unfold treePages; rw [if_pos h0, if_pos (hr.trans h0)]⟩
  · have h0' : t'.root ≠ 0 := by rw [hr]; exact h0
    unfold treePages at hv ⊢
    rw [if_neg h0] at hv
    obtain ⟨f1, f2, f3⟩ := frame h hv
    rw [if_neg h0', if_neg h0, hr, f2]
    refine ⟨⟨_, .inr ⟨h0', ⟨?_, ?_, ?_⟩, rfl⟩, ?_⟩, rfl⟩
    · rw [hr]; exact f3 _ _ ht.wft
    · rw [hr, f2]; exact ht.nodup
    · rw [hr, f2]; intro n hn; have := ht.bound n hn; omega
    · rw [hr, f1]; exact hlm

/-- The state does not depend on the lock and the reader table. -/
theorem DbOk.congr {env env' : Env} {h hf : Nat} {m : KvMap} {fl : List (Bytes × Bytes)} (hdb : DbOk env h hf m fl)
    (h1 : env'.file = env.file) (h2 : env'.filePages = env.filePages) (h3 : env'.mapPages = env.mapPages) (h4 : env'.live = env.live) :
    DbOk env' h hf m fl := by
  obtain ⟨f, fp, mp, l, lk, rs⟩ := env
  obtain ⟨f', fp', mp', l', lk', rs'⟩ := env'
  cases h1; cases h2; cases h3; cases h4
  exact ⟨hdb.live, hdb.valid, hdb.newest,
    (isMap_frame (env' := ⟨f, fp, mp, l, lk', rs'⟩) (t' := readTxn ⟨f, fp, mp, l, lk', rs'⟩) hdb.main rfl (Nat.le_refl _) fun _ _ => rfl).1, hdb.low, hdb.free, hdb.depth, hdb.apart, hdb.ids, hdb.first, hdb.file, hdb.map, hdb.cap⟩

/-! ## Creating, beginning -/

/-- C50: a new database is empty. -/
theorem create_empty {mapPages : Nat} (h2 : 2 ≤ mapPages) (hcap : mapPages < 2 ^ 52) :
    ∃ env, envCreate mapPages = .ok env ∧ env.locked = false ∧ DbOk env 0 0 (fun _ => none) [] := by
  unfold envCreate
  rw [if_neg (by omega)]
  refine ⟨_, rfl, rfl, ?_⟩
  have e1 : metaRoot (metaPage 1 0 1 0) = 0 := metaPage_root _ _ _ _
  have e2 : metaLast (metaPage 1 0 1 0) = 1 := metaPage_last _ _ _ _
  have e3 : metaFree (metaPage 1 0 1 0) = 0 := metaPage_free _ _ _ _
  have e4 : metaTxnid (metaPage 1 0 1 0) = 1 := metaPage_txnid _ _ _ _
  have e5 : metaTxnid (metaPage 0 0 1 0) = 0 := metaPage_txnid _ _ _ _
  refine ⟨(by show 1 < 2; omega), ?_, ?_, ⟨[], .inl ⟨e1, rfl⟩, fun _ => rfl⟩, ?_, .inl ⟨e3, rfl⟩, by decide, ?_, by simp, ?_, ?_, ?_, hcap⟩
  · intro n hn
    show validMeta (if n = 0 then _ else if n = 1 then _ else _) = true
    rcases (by omega : n = 0 ∨ n = 1) with rfl | rfl
    · rw [if_pos rfl]; exact metaPage_valid _ _ _ _
    · rw [if_neg (by omega), if_pos rfl]; exact metaPage_valid _ _ _ _
  · show metaTxnid (metaPage 0 0 1 0) < metaTxnid (metaPage 1 0 1 0)
    rw [e4, e5]; omega
  · intro x hx
    have : x ∈ treePages _ 0 (metaRoot (metaPage 1 0 1 0)) := hx
    rw [e1] at this; simp [treePages] at this
  · intro x hx
    have : x ∈ treePages _ 0 (metaFree (metaPage 1 0 1 0)) := hx
    rw [e3] at this; simp [treePages] at this
  · show 1 ≤ metaLast (metaPage 1 0 1 0); omega
  · show metaLast (metaPage 1 0 1 0) < 2; omega
  · show metaLast (metaPage 1 0 1 0) < mapPages; omega

/-- A write transaction begins with what is committed. -/
theorem begin_writing {env : Env} {h hf : Nat} {m : KvMap} {fl : List (Bytes × Bytes)} (hdb : DbOk env h hf m fl) (hl : env.locked = false)
    (hid : metaTxnid env.liveMeta + 1 < 2 ^ 64) :
    ∃ env' t, beginWrite env = some (env', t) ∧ env' = { env with locked := true } ∧ t.newLast = metaLast env.liveMeta ∧
      Writing env' (metaTxnid env.liveMeta + 1) (metaFree env.liveMeta) (metaRoot env.liveMeta) (offLimits env hf) t h m := by
  unfold beginWrite
  rw [if_neg (by simp [hl])]
  refine ⟨_, _, rfl, rfl, rfl, ⟨rfl, Nat.mod_eq_of_lt hid, rfl, ?_, by simp, ?_⟩, fun _ => rfl, ?_, ?_⟩
  · intro n p hn; simp [Txn.getDirty] at hn
  · intro x hx
    show x ≤ metaLast env.liveMeta
    unfold offLimits at hx
    simp only [List.mem_cons] at hx
    have := hdb.first
    rcases hx with rfl | rfl | hx
    · omega
    · omega
    · exact (hdb.apart x hx).2.1
  · exact (isMap_frame (env' := { env with locked := true })
      (t' := ⟨false, (metaTxnid env.liveMeta + 1) % 2 ^ 64, metaRoot env.liveMeta, metaFree env.liveMeta, metaLast env.liveMeta, [], []⟩)
      hdb.main rfl (Nat.le_refl _) fun x _ => rfl).1
  · intro h0 x hx hF
    have hx' : x ∈ treePages (mapPage env) h (metaRoot env.liveMeta) := by
      unfold treePages; rw [if_neg h0]; exact hx
    have h2 := hdb.low x hx'
    unfold offLimits at hF
    simp only [List.mem_cons] at hF
    rcases hF with rfl | rfl | hF
    · omega
    · omega
    · exact (hdb.apart x hF).2.2 hx'

/-! ## C49: abort -/

/-- C49: whatever a write transaction does before it is aborted (all of it stays in the
transaction), the environment is afterwards as it was before it began. -/
theorem abort_restores {env env' : Env} {t : Txn} (hb : beginWrite env = some (env', t)) : abortWrite env' = env := by
  unfold beginWrite at hb
  split at hb
  · cases hb
  · rename_i h
    cases hb
    unfold abortWrite
    obtain ⟨f, fp, mp, l, lk, rs⟩ := env
    simp at h
    subst h
    rfl

/-! ## C50: commit -/

/-- What a successful commit leaves behind, in detail. -/
theorem commit_detail {env : Env} {h0 hf : Nat} {m0 : KvMap} {fl : List (Bytes × Bytes)} {t : Txn} {h : Nat} {m : KvMap} (fuel : Nat)
    (hdb : DbOk env h0 hf m0 fl) (hid : metaTxnid env.liveMeta + 1 < 2 ^ 64)
    (hW : Writing env (metaTxnid env.liveMeta + 1) (metaFree env.liveMeta) (metaRoot env.liveMeta) (offLimits env hf) t h m)
    (hroom : FreeRoom env (metaTxnid env.liveMeta + 1) (metaFree env.liveMeta) hf t) (hmap : t.newLast + 1 < env.mapPages) :
    ∃ env' h' hf' fl', commit env (fuel + 2) t = .ok (.success, env') ∧ DbOk env' h' hf' m fl' ∧ env'.locked = false ∧
      env'.readers = env.readers ∧ env'.mapPages = env.mapPages ∧ metaTxnid env'.liveMeta ≤ metaTxnid env.liveMeta + 1 ∧
      (t.dirty ≠ [] → metaTxnid env'.liveMeta = metaTxnid env.liveMeta + 1 ∧ env'.live ≠ env.live ∧ env'.file env.live = env.file env.live) ∧
      (∀ kv ∈ fl', kv ∈ fl ∨ kv = (le 8 (metaTxnid env.liveMeta + 1), t.freed.flatMap (le 8))) ∧ metaRoot env'.liveMeta = t.root ∧ (t.root ≠ 0 → h' = h) ∧
      (∀ x ∈ treePages (getPage env t) h t.root, mapPage env' x = getPage env t x) ∧
      (t.freed = [] → metaFree env'.liveMeta = metaFree env.liveMeta) ∧
      (t.dirty ≠ [] → metaLast env'.liveMeta ≤ t.newLast + 1) := by
  have hc := hW.clean
  unfold commit commitWith
  by_cases hd : t.dirty = []
  · rw [if_pos hd]
    have hv : getPage env t = mapPage env := by
      funext x; unfold getPage; rw [hc.rdonly]; simp [Txn.getDirty, hd]
    have : m = m0 := isMap_unique hW.map hdb.main hv (hW.idle hd)
    subst this
    refine ⟨_, h0, hf, fl, rfl, hdb.congr rfl rfl rfl rfl, rfl, rfl, rfl, by show metaTxnid env.liveMeta ≤ _; omega, fun hx => absurd hd hx, fun _ hx => .inl hx,
      (hW.idle hd).symm, ?_, fun x _ => by rw [hv]; rfl, fun _ => rfl, fun hx => absurd hd hx⟩
    · intro hr
      obtain ⟨l, hl, -⟩ := hW.map
      obtain ⟨l0, hl0, -⟩ := hdb.main
      rcases hl with ⟨hx, -⟩ | ⟨-, ht, -⟩
      · exact absurd hx hr
      · rcases hl0 with ⟨hx, -⟩ | ⟨-, ht0, -⟩
        · exact absurd ((hW.idle hd).trans hx) hr
        · have e := ht.wft
          rw [hv, hW.idle hd] at e
          exact (wft_height h e ht0.wft).symm
  · rw [if_neg hd]
    have hmb : ∀ x ∈ treePages (getPage env t) h t.root, x ∉ offLimits env hf ∧ x ≤ t.newLast := by
      intro x hx
      unfold treePages at hx
      by_cases hr : t.root = 0
      · rw [if_pos hr] at hx; cases hx
      · rw [if_neg hr] at hx
        refine ⟨hW.apart hr x hx, ?_⟩
        obtain ⟨l, hl, -⟩ := hW.map
        rcases hl with ⟨hx, -⟩ | ⟨-, ht, -⟩
        · exact absurd hx hr
        · exact (ht.bound x hx).2
    have hcap := hdb.cap
    obtain ⟨t2, fr', hf', fl', p1, p2, p3, p4, p5, p6, p7, p8, p9, p10⟩ := populate_spec (al := alloc env (fuel + 2)) rfl hc hmb hdb.free
      (fun x hx => (hdb.apart x hx).1) hdb.depth hid (fun kv hkv => by
        obtain ⟨i, hi, e⟩ := hdb.ids kv hkv
        exact ⟨i, by omega, e⟩) (fun h0 t ht => alloc_quiet (.none h0) ht) hroom (by omega)
    have hfp : 2 ≤ env.filePages := by have := hdb.first; have := hdb.file; omega
    have hacts : commitActs (alloc env (fuel + 2)) env t = .ok (.ok (allActs env t2 t2.root fr')) := by
      unfold commitActs
      rw [p1, Res.ok_bind]
      simp only []
      rw [clean_remap p2, Res.ok_bind, clean_newPgno p2]
      rfl
    rw [hacts, Res.ok_bind]
    have hm2 : t2.newLast < env.mapPages := by omega
    obtain ⟨c1, c2, -, -, c3, c4⟩ := committed_file (root := t2.root) (free := fr') p2 (by simp) (by simp) hdb.file hfp
    have hview : ∀ {x : Nat} {p : Page}, 2 ≤ x → getPage env t2 x = .ok p → mapPage (committed env t2 t2.root fr') x = .ok p :=
      fun hx hg => committed_view p2 (by simp) (by simp) hdb.file hfp hm2 hx hg
    refine ⟨committed env t2 t2.root fr', h, hf', fl', rfl, ?_⟩
    have hlm : (committed env t2 t2.root fr').liveMeta = metaPage t2.txnid t2.root t2.newLast fr' := c1
    have hst : staleMeta (committed env t2 t2.root fr') = env.live := by
      have := hdb.live
      show (if staleMeta env = 0 then 1 else 0) = env.live
      unfold staleMeta
      split <;> simp <;> omega
    have hr64 : t2.root < 2 ^ 64 := by
      rw [p3]
      by_cases hr : t.root = 0
      · rw [hr]; omega
      · have := (hmb t.root (by unfold treePages; rw [if_neg hr]; exact self_mem_pagesOf _ _ _)).2
        omega
    have hf64 : fr' < 2 ^ 64 := by
      by_cases hr : fr' = 0
      · rw [hr]; omega
      · have := (p9 fr' (by unfold treePages; rw [if_neg hr]; exact self_mem_pagesOf _ _ _)).2.1
        omega
    have e1 : metaTxnid (committed env t2 t2.root fr').liveMeta = metaTxnid env.liveMeta + 1 := by
      rw [hlm, metaPage_txnid, p2.txnid, Nat.mod_eq_of_lt hid]
    have e2 : metaRoot (committed env t2 t2.root fr').liveMeta = t.root := by
      rw [hlm, metaPage_root, Nat.mod_eq_of_lt hr64, p3]
    have e3 : metaLast (committed env t2 t2.root fr').liveMeta = t2.newLast := by
      rw [hlm, metaPage_last, Nat.mod_eq_of_lt (by omega)]
    have e4 : metaFree (committed env t2 t2.root fr').liveMeta = fr' := by
      rw [hlm, metaPage_free, Nat.mod_eq_of_lt hf64]
    have emp : (committed env t2 t2.root fr').mapPages = env.mapPages := (runActs_kept _ _).map
    have low01 : ∀ x, x ∉ offLimits env hf → 2 ≤ x := by
      intro x hx
      unfold offLimits at hx
      simp at hx; omega
    have wt : ∀ x ∈ treePages (getPage env t) h t.root, ∃ p, getPage env t x = .ok p := by
      intro x hx
      unfold treePages at hx
      by_cases hr : t.root = 0
      · rw [if_pos hr] at hx; cases hx
      · rw [if_neg hr] at hx
        obtain ⟨l, hl, -⟩ := hW.map
        rcases hl with ⟨hx, -⟩ | ⟨-, ht, -⟩
        · exact absurd hx hr
        · obtain ⟨p, hp, -⟩ := wft_pages h ht.wft x hx
          exact ⟨p, hp⟩
    have wf' : ∀ x ∈ treePages (getPage env t2) hf' fr', ∃ p, getPage env t2 x = .ok p := by
      intro x hx
      unfold treePages at hx
      by_cases hr : fr' = 0
      · rw [if_pos hr] at hx; cases hx
      · rw [if_neg hr] at hx
        rcases p7 with ⟨hx, -⟩ | ⟨-, ht, -⟩
        · exact absurd hx hr
        · obtain ⟨p, hp, -⟩ := wft_pages hf' ht x hx
          exact ⟨p, hp⟩
    obtain ⟨m1, m2⟩ := isMap_frame (env' := committed env t2 t2.root fr') (t' := readTxn (committed env t2 t2.root fr')) hW.map e2
      (by show t.newLast ≤ metaLast _; rw [e3]; exact p4) (by
      intro x hx
      obtain ⟨p, hp⟩ := wt x hx
      rw [hp]
      exact hview (low01 x (hmb x hx).1) (by rw [p6 x hx, hp]))
    obtain ⟨f1, f2⟩ := freeDb_frame p7 (g' := mapPage (committed env t2 t2.root fr')) (by
      intro x hx
      obtain ⟨p, hp⟩ := wf' x hx
      rw [hp]
      exact hview (p9 x hx).1 hp)
    have hfirst := p2.last 1 (by simp)
    have m2' : treePages (mapPage (committed env t2 t2.root fr')) h (metaRoot (committed env t2 t2.root fr').liveMeta) = treePages (getPage env t) h t.root := m2
    refine ⟨⟨stale_lt env, ?_, ?_, m1, ?_, ?_, p8, ?_, ?_, ?_, ?_, ?_, ?_⟩, rfl, (runActs_kept _ _).readers, emp, by rw [e1]; omega,
      fun _ => ⟨e1, stale_ne env, c2 hdb.live⟩, p10, e2, fun _ => rfl, ?_, ?_, fun _ => by rw [e3]; exact p5⟩
    rotate_left 10
    · intro x hx
      obtain ⟨p, hp⟩ := wt x hx
      rw [hp]
      exact hview (low01 x (hmb x hx).1) (by rw [p6 x hx, hp])
    · intro hfd
      rw [e4]
      unfold populate at p1
      rw [if_pos hfd] at p1
      cases p1
      exact hc.free
    · intro n hn
      have := hdb.live
      by_cases hn' : n = staleMeta env
      · rw [hn', c1]; exact metaPage_valid _ _ _ _
      · have : n = env.live := by unfold staleMeta at hn'; split at hn' <;> omega
        rw [this, c2 hdb.live]; exact hdb.valid _ hdb.live
    · rw [hst, c2 hdb.live, e1]
      show metaTxnid env.liveMeta < _; omega
    · rw [m2']
      intro x hx; exact low01 x (hmb x hx).1
    · rw [e4]; exact f1
    · rw [e4, f2, e3, m2']; exact p9
    · intro kv hkv
      rw [e1]
      rcases p10 kv hkv with hx | hx
      · obtain ⟨i, hi, e⟩ := hdb.ids kv hx
        exact ⟨i, by omega, e⟩
      · exact ⟨_, Nat.le_refl _, by rw [hx]⟩
    · rw [e3]; exact hfirst
    · rw [e3]; exact c3
    · rw [e3, emp]; exact hm2
    · rw [emp]; exact hcap

/-- C50 for one commit, while the Free DB entry of the transaction fits and the file stays within
the map: the commit succeeds, releases the lock, and what is committed is the map the
transaction held.  (Without the conditions on allocation in `Writing`'s steps the property is
false: see `committed_key_lost`.) -/
theorem commit_saves_partial {env : Env} {h0 hf : Nat} {m0 : KvMap} {fl : List (Bytes × Bytes)} {t : Txn} {h : Nat} {m : KvMap} (fuel : Nat)
    (hdb : DbOk env h0 hf m0 fl) (hid : metaTxnid env.liveMeta + 1 < 2 ^ 64)
    (hW : Writing env (metaTxnid env.liveMeta + 1) (metaFree env.liveMeta) (metaRoot env.liveMeta) (offLimits env hf) t h m)
    (hroom : FreeRoom env (metaTxnid env.liveMeta + 1) (metaFree env.liveMeta) hf t) (hmap : t.newLast + 1 < env.mapPages) :
    ∃ env' h' hf' fl', commit env (fuel + 2) t = .ok (.success, env') ∧ DbOk env' h' hf' m fl' ∧ env'.locked = false ∧
      env'.readers = env.readers ∧ env'.mapPages = env.mapPages ∧ metaTxnid env'.liveMeta ≤ metaTxnid env.liveMeta + 1 ∧
      (t.dirty ≠ [] → metaTxnid env'.liveMeta = metaTxnid env.liveMeta + 1 ∧ env'.live ≠ env.live ∧ env'.file env.live = env.file env.live) ∧
      ∀ kv ∈ fl', kv ∈ fl ∨ kv.1 = le 8 (metaTxnid env.liveMeta + 1) := by
  obtain ⟨env', h', hf', fl', a1, a2, a3, a4, a5, a6, a7, a8, -⟩ := commit_detail fuel hdb hid hW hroom hmap
  exact ⟨env', h', hf', fl', a1, a2, a3, a4, a5, a6, a7, fun kv hkv => (a8 kv hkv).imp id fun h => by rw [h]⟩

/-- C50 across closing and opening: the same state, with the lock free and no readers. -/
theorem reopen_keeps {env : Env} {h hf : Nat} {m : KvMap} {fl : List (Bytes × Bytes)} (hdb : DbOk env h hf m fl) {mapPages : Nat}
    (hmap : metaLast env.liveMeta < mapPages) (hcap : mapPages < 2 ^ 52) :
    ∃ env', envOpen env.file env.filePages mapPages = .ok (.ok env') ∧ env'.locked = false ∧ env'.live = env.live ∧ env'.file = env.file ∧
      DbOk env' h hf m fl := by
  have h1 := hdb.first
  have h2 := hdb.file
  have hsel : selectLive (env.file 0) (env.file 1) = some env.live := by
    unfold selectLive
    rw [hdb.valid 0 (by omega), hdb.valid 1 (by omega)]
    have hn := hdb.newest
    unfold staleMeta Env.liveMeta at hn
    rcases (by have := hdb.live; omega : env.live = 0 ∨ env.live = 1) with e | e
    · rw [e] at hn ⊢
      simp at hn
      simp [hn]
    · rw [e] at hn ⊢
      simp at hn
      simp; omega
  unfold envOpen
  rw [if_neg (by omega), hsel]
  refine ⟨_, rfl, rfl, rfl, rfl, ?_⟩
  let env' : Env := ⟨env.file, env.filePages, mapPages, env.live, false, List.replicate maxReaders noSlot⟩
  have hv : ∀ x, x ≤ metaLast env.liveMeta → mapPage env' x = mapPage env x := by
    intro x hx
    have := hdb.map
    unfold mapPage
    show (if x < mapPages ∧ x < env.filePages then _ else _) = _
    rw [if_pos (by omega), if_pos (by omega)]
  obtain ⟨m1, m2⟩ := isMap_frame (env' := env') (t' := readTxn env') hdb.main rfl (Nat.le_refl _) (by
    intro x hx
    apply hv
    unfold treePages at hx
    by_cases hr : (readTxn env).root = 0
    · rw [if_pos hr] at hx; cases hx
    · rw [if_neg hr] at hx
      obtain ⟨l, hl, -⟩ := hdb.main
      rcases hl with ⟨hx, -⟩ | ⟨-, ht, -⟩
      · exact absurd hx hr
      · exact (ht.bound x hx).2)
  have m2' : treePages (mapPage env') h (metaRoot env'.liveMeta) = treePages (mapPage env) h (metaRoot env.liveMeta) := m2
  obtain ⟨f1, f2⟩ := freeDb_frame hdb.free (g' := mapPage env') fun x hx => hv x (hdb.apart x hx).2.1
  show DbOk env' h hf m fl
  refine ⟨hdb.live, hdb.valid, hdb.newest, m1, ?_, f1, hdb.depth, ?_, hdb.ids, hdb.first, hdb.file, hmap, hcap⟩
  · rw [m2']; exact hdb.low
  · rw [m2']
    intro x hx
    have hx' : x ∈ treePages (mapPage env') hf (metaFree env.liveMeta) := hx
    rw [f2] at hx'
    exact hdb.apart x hx'

/-- C50: a read transaction that begins now answers what is committed. -/
theorem reader_sees_committed {env : Env} {h hf : Nat} {m : KvMap} {fl : List (Bytes × Bytes)} (hdb : DbOk env h hf m fl) {pid tid : Nat}
    {env' : Env} {t : Txn} (hb : beginRead env pid tid = .ok (env', t)) {key : Bytes} (hk : key.length < 65536) {fuel : Nat} (hf' : h < fuel) :
    get env' t fuel key = .ok (m.answer key) := by
  unfold beginRead at hb
  split at hb
  · cases hb
  · rename_i rs hrs
    cases hb
    have := isMap_frame (env' := { env with readers := rs }) (t' := readTxn env) hdb.main rfl (Nat.le_refl _) fun _ _ => rfl
    exact get_answers this.1 hk hf'

/-! ## Whole histories -/

/-- The operations of one write transaction.  Each `put` meets `PutSafe`, and either the Free DB gives
no page back or the pair fits into its leaf. -/
inductive Body (env : Env) (fuel id fr : Nat) (F : List Nat) : Txn → KvMap → List KvOp → Txn → Prop
  | nil (t m) : Body env fuel id fr F t m [] t
  | put {t t1 t2 m k v ops} (hs : ∀ h, Height env t m h → PutSafe env t h m k v)
      (hq : Quiet env id fr F fuel ∨ ∀ h, Height env t m h → PutFits env t h m k v)
      (hrun : put env (fuel + 2) t k v = .ok (.success, t1))
      (rest : Body env fuel id fr F t1 (m.put k v) ops t2) : Body env fuel id fr F t m (.put k v :: ops) t2
  | del {t t1 t2 m k st ops} (hk : k.length < 65536) (hd : ∀ h, Height env t m h → h < maxDepth)
      (hrun : del env t k = .ok (st, t1))
      (rest : Body env fuel id fr F t1 (m.del k) ops t2) : Body env fuel id fr F t m (.del k :: ops) t2

/-- Every page of the tree stays in the tree, and only pages of the tree are added to the list of freed pages. -/
theorem body_pages {env : Env} {fuel id fr r : Nat} {F : List Nat} {t t' : Txn} {m : KvMap} {ops : List KvOp}
    (H : Body env fuel id fr F t m ops t') : ∀ {h : Nat}, Writing env id fr r F t h m →
    ∃ h', Writing env id fr r F t' h' (ops.foldl KvOp.apply m) ∧
      (∀ x ∈ treePages (getPage env t) h t.root, x ∈ treePages (getPage env t') h' t'.root) ∧
      ∀ x ∈ t'.freed, x ∈ t.freed ∨ x ∈ treePages (getPage env t') h' t'.root := by
  induction H with
  | nil t m => intro h hW; exact ⟨h, hW, fun _ hx => hx, fun _ hx => .inl hx⟩
  | @put t t1 t2 m k v ops hs hq hrun _ ih =>
    intro h hW
    have key : ∀ h, Writing env id fr r F t h m → Height env t m h → ∃ h', Writing env id fr r F t2 h' (ops.foldl KvOp.apply (m.put k v)) ∧
        (∀ x ∈ treePages (getPage env t) h t.root, x ∈ treePages (getPage env t2) h' t2.root) ∧
        ∀ x ∈ t2.freed, x ∈ t.freed ∨ x ∈ treePages (getPage env t2) h' t2.root := by
      intro h hW hh
      obtain ⟨st, t'', h1, h2, h3⟩ := put_writing (fuel := fuel) hW (hs h hh) (hq.imp (fun x => x) (fun hq => hq h hh))
      rw [hrun] at h1; cases h1
      obtain ⟨h', -, hW', -, -, k1, k2⟩ := h3 rfl
      obtain ⟨h2, i1, i2, i3⟩ := ih hW'
      refine ⟨h2, i1, fun x hx => i2 x (k1 x hx), fun x hx => ?_⟩
      rcases i3 x hx with hx | hx
      · exact (k2 x hx).imp (fun h => h) fun hx => i2 x (k1 x hx)
      · exact .inr hx
    obtain ⟨h', hm, hz⟩ := isMap_height hW.map
    by_cases h0 : t.root = 0
    · have := key h' ⟨hW.clean, hW.idle, hm, fun hn => absurd h0 hn⟩ ⟨hm, hz⟩
      rw [show treePages (getPage env t) h t.root = treePages (getPage env t) h' t.root by unfold treePages; rw [if_pos h0, if_pos h0]]
      exact this
    · exact key h hW ⟨hW.map, fun hn => absurd hn h0⟩
  | @del t t1 t2 m k st ops hk hd hrun _ ih =>
    intro h hW
    have key : ∀ h, Writing env id fr r F t h m → Height env t m h → ∃ h', Writing env id fr r F t2 h' (ops.foldl KvOp.apply (m.del k)) ∧
        (∀ x ∈ treePages (getPage env t) h t.root, x ∈ treePages (getPage env t2) h' t2.root) ∧
        ∀ x ∈ t2.freed, x ∈ t.freed ∨ x ∈ treePages (getPage env t2) h' t2.root := by
      intro h hW hh
      obtain ⟨h1, h2⟩ := del_writing hW hk (hd h hh)
      by_cases hx : m k = none
      · rw [hrun] at h1
        cases h1 hx
        have : m.del k = m := by
          funext x; unfold KvMap.del; split
          · rename_i e; rw [e, hx]
          · rfl
        rw [this] at ih ⊢
        exact ih hW
      · obtain ⟨t1', e, e1, -, k1, k2⟩ := h2 hx
        rw [hrun] at e; cases e
        obtain ⟨h2, i1, i2, i3⟩ := ih e1
        refine ⟨h2, i1, fun x hx => i2 x (by rw [k1]; exact hx), fun x hx => ?_⟩
        rcases i3 x hx with hx | hx
        · exact (k2 x hx).imp (fun h => h) fun hx => i2 x (by rw [k1]; exact hx)
        · exact .inr hx
    obtain ⟨h', hm, hz⟩ := isMap_height hW.map
    by_cases h0 : t.root = 0
    · have := key h' ⟨hW.clean, hW.idle, hm, fun hn => absurd h0 hn⟩ ⟨hm, hz⟩
      rw [show treePages (getPage env t) h t.root = treePages (getPage env t) h' t.root by unfold treePages; rw [if_pos h0, if_pos h0]]
      exact this
    · exact key h hW ⟨hW.map, fun hn => absurd hn h0⟩

theorem body_writing {env : Env} {fuel id fr r : Nat} {F : List Nat} {t t' : Txn} {m : KvMap} {ops : List KvOp}
    (H : Body env fuel id fr F t m ops t') {h : Nat} (hW : Writing env id fr r F t h m) :
    ∃ h', Writing env id fr r F t' h' (ops.foldl KvOp.apply m) := by
  obtain ⟨h', hW', -⟩ := body_pages H hW
  exact ⟨h', hW'⟩

/-- A history of the database: write transactions that commit or abort, closing and opening again,
and changes of the reader table by read transactions that begin and end. -/
inductive Run (fuel : Nat) : Env → KvMap → Env → KvMap → Prop
  | nil (env m) : Run fuel env m env m
  | commit {env env1 env2 env' : Env} {t t' : Txn} {m m' : KvMap} {ops : List KvOp} (hid : metaTxnid env.liveMeta + 1 < 2 ^ 64)
      (hb : beginWrite env = some (env1, t))
      (hops : ∀ h hf fl, DbOk env h hf m fl →
        Body env1 fuel (metaTxnid env.liveMeta + 1) (metaFree env.liveMeta) (offLimits env hf) t m ops t' ∧
        FreeRoom env (metaTxnid env.liveMeta + 1) (metaFree env.liveMeta) hf t')
      (hmap : t'.newLast + 1 < env.mapPages)
      (hc : commit env1 (fuel + 2) t' = .ok (.success, env2)) (rest : Run fuel env2 (ops.foldl KvOp.apply m) env' m') :
      Run fuel env m env' m'
  | abort {env env1 env' : Env} {t : Txn} {m m' : KvMap} (hb : beginWrite env = some (env1, t)) (rest : Run fuel (abortWrite env1) m env' m') :
      Run fuel env m env' m'
  | reopen {env env1 env' : Env} {m m' : KvMap} {mapPages : Nat} (hmap : metaLast env.liveMeta < mapPages) (hcap : mapPages < 2 ^ 52)
      (ho : envOpen env.file env.filePages mapPages = .ok (.ok env1)) (rest : Run fuel env1 m env' m') : Run fuel env m env' m'
  | readers {env env' : Env} {m m' : KvMap} (rs : List Slot) (rest : Run fuel { env with readers := rs } m env' m') : Run fuel env m env' m'

/-- C50 over whole histories (and C49 inside them): the committed state is the map that the operations
of the committed transactions give, and every later read transaction answers from it.  Partial
because of the conditions of `Body` and `FreeRoom`. -/
theorem run_refines_partial {fuel : Nat} {env env' : Env} {m m' : KvMap} (H : Run fuel env m env' m') :
    ∀ {h hf : Nat} {fl : List (Bytes × Bytes)}, DbOk env h hf m fl → ∃ h' hf' fl', DbOk env' h' hf' m' fl' := by
  induction H with
  | nil env m => intro h hf fl hdb; exact ⟨_, _, _, hdb⟩
  | @commit env env1 env2 env' t t' m m' ops hid hb hops hmap hc _ ih =>
    intro h hf fl hdb
    have hl : env.locked = false := by
      unfold beginWrite at hb
      split at hb
      · cases hb
      · rename_i h; simpa using h
    obtain ⟨env1', t1, b1, b2, -, b3⟩ := begin_writing hdb hl hid
    rw [hb] at b1; cases b1
    obtain ⟨o1, o2⟩ := hops h hf fl hdb
    obtain ⟨h', hW⟩ := body_writing o1 b3
    subst b2
    obtain ⟨env2', h2, hf2, fl2, c1, c2, -⟩ := commit_saves_partial fuel (env := { env with locked := true })
      (hdb.congr rfl rfl rfl rfl) hid hW ⟨o2.fresh, o2.leaf⟩ hmap
    rw [hc] at c1; cases c1
    exact ih c2
  | abort hb _ ih =>
    intro h hf fl hdb
    rw [abort_restores hb] at ih
    exact ih hdb
  | reopen hmap hcap ho _ ih =>
    intro h hf fl hdb
    obtain ⟨env1', o1, -, -, -, o2⟩ := reopen_keeps hdb hmap hcap
    rw [ho] at o1; cases o1
    exact ih o2
  | readers rs _ ih =>
    intro h hf fl hdb
    exact ih (hdb.congr rfl rfl rfl rfl)

/-- C50 from the creation of the database on. -/
theorem history_of_database_partial {fuel mapPages : Nat} {env env' : Env} {m' : KvMap} (h2 : 2 ≤ mapPages) (hcap : mapPages < 2 ^ 52)
    (hc : envCreate mapPages = .ok env) (H : Run fuel env (fun _ => none) env' m') :
    ∃ h, ∀ pid tid env'' t, beginRead env' pid tid = .ok (env'', t) → ∀ key fuel', key.length < 65536 → h < fuel' →
      get env'' t fuel' key = .ok (m'.answer key) := by
  obtain ⟨env0, e1, -, e2⟩ := create_empty h2 hcap
  rw [hc] at e1; cases e1
  obtain ⟨h, hf, fl, hdb⟩ := run_refines_partial H e2
  exact ⟨h, fun pid tid env'' t hb key fuel' hk hf' => reader_sees_committed hdb hb hk hf'⟩

end Verif.Db
