import Verif.Db.Blocked
import Verif.Db.FreeProps
import Verif.Db.CrashProps

/-!
# A database of any size after a commit that failed (C129)

`StuckProps.lean` says what the failure of a commit does to a database of one leaf.  Here the trees have any size.  As soon as the pages of a transaction are written, the Free DB has the entry of
the transaction; if the meta page does not follow, the next transaction gets the same number, and its entry is refused.
-/

namespace Verif.Db

open Verif.Page

/-! ### What the database looks like then -/

/-- The Free DB has an entry under the number that the next transaction will get. -/
structure Jammed (env : Env) (hf : Nat) (fl : List (Bytes × Bytes)) : Prop where
  free : FreeDb (mapPage env) hf (metaFree env.liveMeta) fl
  there : metaFree env.liveMeta ≠ 0
  depth : hf < maxDepth
  last : ∀ x ∈ treePages (mapPage env) hf (metaFree env.liveMeta), x ≤ metaLast env.liveMeta
  entry : le 8 (metaTxnid env.liveMeta + 1) ∈ fl.map Prod.fst
  id : metaTxnid env.liveMeta + 1 < 2 ^ 64

/-- Such a database whose live meta page leads to a tree that is the map `m`. -/
structure Halted (env : Env) (h hf : Nat) (m : KvMap) (fl : List (Bytes × Bytes)) : Prop where
  jam : Jammed env hf fl
  main : IsMap env (readTxn env) h m
  root : metaRoot env.liveMeta ≠ 0
  apart : ∀ x ∈ treePages (mapPage env) h (metaRoot env.liveMeta), x ∉ offLimits env hf
  first : 1 ≤ metaLast env.liveMeta
  map : metaLast env.liveMeta < env.mapPages
  file : metaLast env.liveMeta < env.filePages

/-! ### Such a database refuses every change -/

theorem closed_rdonly (env : Env) (b : Bool) : Closed env fun t => t.rdonly = b := by
  refine ⟨fun _ _ _ h => h, ?_, fun _ h => h, fun _ _ h => h⟩
  intro t n r h ht
  obtain ⟨p, -, -, h | h⟩ := getWritable_cases h
  · rw [h.1]; exact ht
  · rw [h]; exact ht

theorem begin_eq {env env1 : Env} {t : Txn} (hb : beginWrite env = some (env1, t)) : env.locked = false ∧ env1 = { env with locked := true } ∧
    t = ⟨false, (metaTxnid env.liveMeta + 1) % 2 ^ 64, metaRoot env.liveMeta, metaFree env.liveMeta, metaLast env.liveMeta, [], []⟩ := by
  unfold beginWrite at hb
  split at hb
  · cases hb
  · rename_i h
    cases hb
    exact ⟨by simpa using h, rfl, rfl⟩

/-- **C129.**  Every write transaction that has changed something, whatever it did and whatever its calls returned, is refused, if it has copied no page of the Free DB. -/
theorem jammed_refuses {env env1 : Env} {hf : Nat} {fl : List (Bytes × Bytes)} (J : Jammed env hf fl) {al : Alloc} {fail : Option Nat} {t t' : Txn} (hb : beginWrite env = some (env1, t)) (ho : Ops env1 t t')
    (hd : t'.dirty ≠ []) (hfr : t'.freed ≠ []) (hn : ∀ x ∈ treePages (mapPage env) hf (metaFree env.liveMeta), t'.getDirty x = none) :
    commitWith al fail env1 t' = .ok (.exist, env) := by
  have hlast := last_grows hb ho
  obtain ⟨hl, rfl, rfl⟩ := begin_eq hb
  have e1 : t'.rdonly = false := ops_inv (closed_rdonly _ _) ho rfl
  have e2 : t'.freeRoot = metaFree env.liveMeta := ops_inv (closed_freeRoot _ _) ho rfl
  have e3 : t'.txnid = (metaTxnid env.liveMeta + 1) % 2 ^ 64 := ops_inv (closed_txnid _ _) ho rfl
  rw [Nat.mod_eq_of_lt J.id] at e3
  have hv : ∀ x ∈ treePages (mapPage env) hf (metaFree env.liveMeta), getPage { env with locked := true } t' x = mapPage env x := by
    intro x hx
    unfold getPage
    rw [e1, hn x hx]; rfl
  obtain ⟨f1, f2⟩ := freeDb_frame J.free hv
  rw [commit_refuses_duplicate (hf := hf) (fl := fl) hd hfr (by rw [e2]; exact J.there) (by rw [e2]; exact f1) J.depth ?_ (by rw [e3]; exact J.entry)]
  · rw [Wear.unlocked hl]
  · intro x hx
    have hx' : x ∈ treePages (getPage { env with locked := true } t') hf (metaFree env.liveMeta) := by
      unfold treePages; rw [if_neg J.there]; rw [e2] at hx; exact hx
    rw [f2] at hx'
    unfold maxPgno
    rw [e1]
    exact Nat.le_trans (J.last x hx') hlast

/-- A write transaction of a halted database begins with the map. -/
theorem Halted.begin {env env1 : Env} {h hf : Nat} {m : KvMap} {fl : List (Bytes × Bytes)} {t : Txn} (H : Halted env h hf m fl) (hb : beginWrite env = some (env1, t)) :
    Writing env1 (metaTxnid env.liveMeta + 1) (metaFree env.liveMeta) (metaRoot env.liveMeta) (offLimits env hf) t h m := by
  obtain ⟨-, rfl, rfl⟩ := begin_eq hb
  refine ⟨⟨rfl, Nat.mod_eq_of_lt H.jam.id, rfl, ?_, by simp, ?_⟩, fun _ => rfl, ?_, ?_⟩
  · intro n p hn; simp [Txn.getDirty] at hn
  · intro x hx
    show x ≤ metaLast env.liveMeta
    unfold offLimits at hx
    simp only [List.mem_cons] at hx
    have := H.first
    rcases hx with rfl | rfl | hx
    · omega
    · omega
    · exact H.jam.last x hx
  · exact (isMap_frame (env' := { env with locked := true })
      (t' := ⟨false, (metaTxnid env.liveMeta + 1) % 2 ^ 64, metaRoot env.liveMeta, metaFree env.liveMeta, metaLast env.liveMeta, [], []⟩)
      H.main rfl (Nat.le_refl _) fun x _ => rfl).1
  · intro h0 x hx
    refine H.apart x ?_
    unfold treePages; rw [if_neg H.root]; exact hx

/-- **C129.**  In a halted database a write transaction is refused with `APR_EEXIST` if it has changed a page, and otherwise has stored nothing; in both cases all is as before it began. -/
theorem halted_refuses {env env1 : Env} {h hf fuel : Nat} {m : KvMap} {fl : List (Bytes × Bytes)} {t t' : Txn} {ops : List KvOp} (H : Halted env h hf m fl) (hb : beginWrite env = some (env1, t))
    (hops : Body env1 fuel (metaTxnid env.liveMeta + 1) (metaFree env.liveMeta) (offLimits env hf) t m ops t') (al : Alloc) (fail : Option Nat) :
    commitWith al fail env1 t' = .ok (if t'.dirty = [] then .success else .exist, env) ∧ (t'.dirty = [] → ops.foldl KvOp.apply m = m) := by
  have W := H.begin hb
  obtain ⟨h', W'⟩ := body_writing hops W
  obtain ⟨hl, e1, e2⟩ := begin_eq hb
  by_cases hd : t'.dirty = []
  · rw [if_pos hd]
    refine ⟨?_, fun _ => ?_⟩
    · unfold commitWith
      rw [if_pos hd, e1, Wear.unlocked hl]
    · have hv : getPage env1 t' = mapPage env := by
        funext x; unfold getPage; rw [W'.clean.rdonly]; simp [Txn.getDirty, hd]; rw [e1]; rfl
      exact isMap_unique W'.map H.main hv (W'.idle hd)
  · rw [if_neg hd]
    refine ⟨?_, fun h => absurd h hd⟩
    have hc := (body_frees hops W (by rw [e2]; exact H.root) (by rw [e2]; exact fun h => absurd rfl h)).1 hd
    refine jammed_refuses H.jam hb (body_ops hops) hd hc fun x hx => ?_
    cases hg : t'.getDirty x with
    | none => rfl
    | some p => exact absurd (by unfold offLimits; simp [hx]) (W'.clean.dirty x p hg).1

/-- Lookups in a halted database. -/
theorem halted_get {env : Env} {h hf : Nat} {m : KvMap} {fl : List (Bytes × Bytes)} (H : Halted env h hf m fl) {k : Bytes} (hk : k.length < 65536) {fuel : Nat} (hf' : h < fuel) :
    get env (readTxn env) fuel k = .ok (m.answer k) := get_answers H.main hk hf'

/-- The lock, the readers and the size of the map do not matter. -/
theorem Halted.congr {env env' : Env} {h hf : Nat} {m : KvMap} {fl : List (Bytes × Bytes)} (H : Halted env h hf m fl) (h1 : env'.file = env.file) (h2 : env'.filePages = env.filePages)
    (h3 : metaLast env.liveMeta < env'.mapPages) (h4 : env'.live = env.live) : Halted env' h hf m fl := by
  have hfile := H.file
  have hlm : env'.liveMeta = env.liveMeta := by unfold Env.liveMeta; rw [h1, h4]
  have hv : ∀ x, x ≤ metaLast env.liveMeta → mapPage env' x = mapPage env x := by
    intro x hx
    have := H.map
    unfold mapPage
    rw [h1, h2, if_pos (by omega), if_pos (by omega)]
  obtain ⟨m1, m2⟩ := isMap_frame (env' := env') (t' := readTxn env') H.main (by show metaRoot _ = metaRoot _; rw [hlm]) (by show metaLast _ ≤ metaLast _; rw [hlm]; exact Nat.le_refl _) (by
    intro x hx
    refine hv x ?_
    unfold treePages at hx
    have h0 : (readTxn env).root ≠ 0 := H.root
    rw [if_neg h0] at hx
    obtain ⟨l, hl, -⟩ := H.main
    rcases hl with ⟨hx, -⟩ | ⟨-, ht, -⟩
    · exact absurd hx h0
    · exact (ht.bound x hx).2)
  obtain ⟨f1, f2⟩ := freeDb_frame H.jam.free (g' := mapPage env') fun x hx => hv x (H.jam.last x hx)
  have m2' : treePages (mapPage env') h (metaRoot env'.liveMeta) = treePages (mapPage env) h (metaRoot env.liveMeta) := m2
  have ho : offLimits env' hf = offLimits env hf := by unfold offLimits; rw [hlm, f2]
  refine ⟨⟨by rw [hlm]; exact f1, by rw [hlm]; exact H.jam.there, H.jam.depth, ?_, by rw [hlm]; exact H.jam.entry, by rw [hlm]; exact H.jam.id⟩, m1, by rw [hlm]; exact H.root, ?_, by rw [hlm]; exact H.first,
    by rw [hlm]; exact h3, by rw [hlm, h2]; exact H.file⟩
  · rw [hlm, f2]; exact H.jam.last
  · rw [m2', ho]; exact H.apart

/-! ### How it comes to be -/

/-- What a commit does, and what the file shows when it fails after its pages were written.  `n` is the number of file operations that write pages; the three that follow sync them, write the meta
page and sync that. -/
theorem late_failure {env : Env} {h0 hf : Nat} {m0 : KvMap} {fl : List (Bytes × Bytes)} {t : Txn} {h : Nat} {m : KvMap} (al : Alloc) (hdb : DbOk env h0 hf m0 fl) (hid : metaTxnid env.liveMeta + 1 < 2 ^ 64)
    (hW : Writing env (metaTxnid env.liveMeta + 1) (metaFree env.liveMeta) (metaRoot env.liveMeta) (offLimits env hf) t h m)
    (hroom : FreeRoom env (metaTxnid env.liveMeta + 1) (metaFree env.liveMeta) hf t) (hmap : t.newLast < env.mapPages) (hfr : metaFree env.liveMeta ≠ 0) (hfd : t.freed ≠ []) (hd : t.dirty ≠ []) :
    ∃ acts n fl', commitActs al env t = .ok (.ok acts) ∧ acts.length = n + 3 ∧ acts[n]? = some .sync ∧ ∀ i, n ≤ i → i < n + 3 →
      ∃ env', commitWith al (some i) env t = .ok (.general, env') ∧ env' = { runActs env (acts.take i) with locked := false } ∧ Jammed env' hf fl' ∧ env'.live = env.live ∧ env'.mapPages = env.mapPages ∧
        env'.liveMeta = env.liveMeta ∧ env.filePages ≤ env'.filePages ∧ treePages (mapPage env') hf (metaFree env.liveMeta) = treePages (mapPage env) hf (metaFree env.liveMeta) ∧
        (∀ x ∈ treePages (getPage env t) h t.root, mapPage env' x = getPage env t x) ∧ (i < n + 2 → env'.file 0 = env.file 0 ∧ env'.file 1 = env.file 1) := by
  have hc := hW.clean
  have hmb : ∀ x ∈ treePages (getPage env t) h t.root, x ∉ offLimits env hf ∧ x ≤ t.newLast := by
    intro x hx
    unfold treePages at hx
    by_cases hr : t.root = 0
    · rw [if_pos hr] at hx; cases hx
    · rw [if_neg hr] at hx
      refine ⟨hW.apart hr x hx, ?_⟩
      obtain ⟨l, hl, -⟩ := hW.map
      rcases hl with ⟨hx, -⟩ | ⟨-, ht, -⟩
      · exact absurd hx hr
      · exact (ht.bound x hx).2
  obtain ⟨t2, fl', p1, p2, p3, p4, p5, p6, p7, p8, p9⟩ := populate_in_place (al := al) rfl hc hmb hdb.free (fun x hx => (hdb.apart x hx).1) hdb.depth hid (fun kv hkv => by
    obtain ⟨i, hi, e⟩ := hdb.ids kv hkv
    exact ⟨i, by omega, e⟩) hroom hfr hfd
  have hfp : 2 ≤ env.filePages := by have := hdb.first; have := hdb.file; omega
  generalize hfree : metaFree env.liveMeta = free at *
  have hacts : commitActs al env t = .ok (.ok (allActs env t2 t2.root free)) := by
    unfold commitActs
    rw [p1, Res.ok_bind]
    simp only []
    rw [clean_remap p2, Res.ok_bind, clean_newPgno p2]
    rfl
  have hlen : (allActs env t2 t2.root free).length = (pageActs env t2).length + 3 := by rw [allActs_split]; simp
  refine ⟨_, (pageActs env t2).length, fl', hacts, hlen, by rw [allActs_split]; simp, fun i h1 h2 => ⟨_, ?_, rfl, ?_⟩⟩
  · unfold commitWith
    rw [if_neg hd, hacts, Res.ok_bind]
    simp only []
    rw [if_pos (by rw [hlen]; exact h2)]
  have hk := runActs_kept ((allActs env t2 t2.root free).take i) env
  obtain ⟨l1, l2, l3⟩ := late_file (root := t2.root) (free := free) h1 hfp
  generalize hE : runActs env ((allActs env t2 t2.root free).take i) = E at *
  have hm2 : t2.newLast < env.mapPages := by omega
  obtain ⟨-, c2, -, -, -, -⟩ := committed_file (root := t2.root) (free := free) p2 (by simp) (by simp) hdb.file hfp
  have hst := stale_lt env
  have hview : ∀ {x : Nat} {p : Page}, 2 ≤ x → getPage env t2 x = .ok p → mapPage { E with locked := false } x = .ok p := by
    intro x p hx hg
    have := committed_view (root := t2.root) (free := free) p2 (by simp) (by simp) hdb.file hfp hm2 hx hg
    rw [← this]
    unfold mapPage
    show (if x < E.mapPages ∧ x < E.filePages then Res.ok (E.file x) else _) = _
    rw [hk.map, l1, l2 x (by omega), show (committed env t2 t2.root free).mapPages = env.mapPages from (runActs_kept _ _).map]
  have hlive : E.live = env.live := hk.live
  have htop : ({ E with locked := false } : Env).liveMeta = env.liveMeta := by
    show E.file E.live = env.file env.live
    rw [hlive, l2 env.live (fun h => stale_ne env h.symm)]
    exact c2 hdb.live
  have low01 : ∀ x, x ∉ offLimits env hf → 2 ≤ x := by
    intro x hx
    unfold offLimits at hx
    simp at hx; omega
  have wf' : ∀ x ∈ treePages (getPage env t2) hf free, ∃ p, getPage env t2 x = .ok p := by
    intro x hx
    unfold treePages at hx
    rw [if_neg hfr] at hx
    rcases p7 with ⟨hx, -⟩ | ⟨-, ht, -⟩
    · exact absurd hx hfr
    · obtain ⟨p, hp, -⟩ := wft_pages hf ht x hx
      exact ⟨p, hp⟩
  obtain ⟨f1, f2⟩ := freeDb_frame p7 (g' := mapPage { E with locked := false }) (by
    intro x hx
    obtain ⟨p, hp⟩ := wf' x hx
    rw [hp]
    exact hview (hdb.apart x (by rw [hfree, ← p8]; exact hx)).1 hp)
  refine ⟨⟨by rw [htop, hfree]; exact f1, by rw [htop, hfree]; exact hfr, hdb.depth, ?_, by rw [htop]; exact p9, by rw [htop]; exact hid⟩, hlive, hk.map, htop, hk.file, by rw [f2, p8], ?_, ?_⟩
  · rw [htop, hfree, f2, p8]
    intro x hx
    exact (hdb.apart x (by rw [hfree]; exact hx)).2.1
  · intro x hx
    unfold treePages at hx
    by_cases hr : t.root = 0
    · rw [if_pos hr] at hx; cases hx
    · rw [if_neg hr] at hx
      obtain ⟨l, hl, -⟩ := hW.map
      rcases hl with ⟨hx, -⟩ | ⟨-, ht, -⟩
      · exact absurd hx hr
      · obtain ⟨p, hp, -⟩ := wft_pages h ht.wft x hx
        have hx' : x ∈ treePages (getPage env t) h t.root := by unfold treePages; rw [if_neg hr]; exact hx
        rw [hp]
        exact hview (low01 x (hmb x hx').1) (by rw [p6 x hx', hp])
  · intro hi
    have e := l3 (by omega)
    have dlow : ∀ n p, (n, p) ∈ t2.dirty → 2 ≤ n := by
      intro n p hm
      have := (p2.dirty n p ((getDirty_mem p2.nodup).2 hm)).1
      simp at this; omega
    have un : ∀ n, n < 2 → E.file n = env.file n := by
      intro n hn
      rw [e]
      refine untouched _ (by omega) ?_
      intro p hp
      unfold pageActs at hp
      rw [List.mem_append, List.mem_map] at hp
      rcases hp with hp | ⟨x, hx, hp⟩
      · exact mem_extendActs hp
      · cases hp
        have := dlow _ _ hx
        omega
    exact ⟨un 0 (by decide), un 1 (by decide)⟩

/-- With no page allocated, the live meta page leads to the tree that the failed transaction made. -/
theorem halted_of {env env' : Env} {h0 hf : Nat} {m0 : KvMap} {fl fl' : List (Bytes × Bytes)} {t : Txn} {h : Nat} {m : KvMap} (hdb : DbOk env h0 hf m0 fl)
    (hW : Writing env (metaTxnid env.liveMeta + 1) (metaFree env.liveMeta) (metaRoot env.liveMeta) (offLimits env hf) t h m)
    (hr0 : metaRoot env.liveMeta ≠ 0) (hroot : t.root = metaRoot env.liveMeta) (hlast : t.newLast = metaLast env.liveMeta)
    (J : Jammed env' hf fl') (h1 : env'.mapPages = env.mapPages) (h2 : env'.liveMeta = env.liveMeta) (h3 : env.filePages ≤ env'.filePages)
    (h4 : treePages (mapPage env') hf (metaFree env.liveMeta) = treePages (mapPage env) hf (metaFree env.liveMeta))
    (h5 : ∀ x ∈ treePages (getPage env t) h t.root, mapPage env' x = getPage env t x) : Halted env' h hf m fl' := by
  obtain ⟨m1, m2⟩ := isMap_frame (env' := env') (t' := readTxn env') hW.map (by show metaRoot _ = _; rw [h2, hroot]) (by show _ ≤ metaLast _; rw [h2, hlast]; exact Nat.le_refl _) h5
  have m2' : treePages (mapPage env') h (metaRoot env'.liveMeta) = treePages (getPage env t) h t.root := m2
  refine ⟨J, m1, by rw [h2]; exact hr0, ?_, by rw [h2]; exact hdb.first, by rw [h2, h1]; exact hdb.map, by rw [h2]; exact Nat.lt_of_lt_of_le hdb.file h3⟩
  intro x hx
  rw [m2'] at hx
  unfold offLimits
  rw [h2, h4]
  have h0 : t.root ≠ 0 := by rw [hroot]; exact hr0
  unfold treePages at hx
  rw [if_neg h0] at hx
  exact hW.apart h0 x hx

/-! ### The whole story -/

theorem Wear.open_any {env : Env} {mapPages : Nat} (hs : selectLive (env.file 0) (env.file 1) = some env.live) (h2 : 2 ≤ env.filePages) (hm : 2 ≤ mapPages) :
    envOpen env.file env.filePages mapPages = .ok (.ok (again env mapPages)) := by
  unfold envOpen
  rw [if_neg (by omega), hs]
  rfl

theorem Wear.again_eq {env env1 : Env} {mapPages : Nat} (hs : selectLive (env.file 0) (env.file 1) = some env.live) (h2 : 2 ≤ env.filePages) (hm : 2 ≤ mapPages)
    (ho : envOpen env.file env.filePages mapPages = .ok (.ok env1)) : env1 = again env mapPages := by
  rw [open_any hs h2 hm] at ho
  exact (Except.ok.inj (Res.ok.inj ho)).symm

/-- Anything that is done with a database after the failure: write transactions, with the answers of their commits, further failures included; write transactions that are aborted; closing and opening
the file; read transactions that begin and end. -/
inductive Tries (fuel : Nat) (m : KvMap) : Env → List (List KvOp × Status) → Env → Prop
  | nil (env) : Tries fuel m env [] env
  | commit {env env1 env2 env' : Env} {t t' : Txn} {ops : List KvOp} {st : Status} {fail : Option Nat} {L : List (List KvOp × Status)} (hb : beginWrite env = some (env1, t))
      (hops : ∀ h hf fl, Halted env h hf m fl → Body env1 fuel (metaTxnid env.liveMeta + 1) (metaFree env.liveMeta) (offLimits env hf) t m ops t')
      (hc : commitWith (alloc env1 (fuel + 2)) fail env1 t' = .ok (st, env2)) (rest : Tries fuel m env2 L env') : Tries fuel m env ((ops, st) :: L) env'
  | abort {env env1 env' : Env} {t : Txn} {L : List (List KvOp × Status)} (hb : beginWrite env = some (env1, t)) (rest : Tries fuel m (abortWrite env1) L env') : Tries fuel m env L env'
  | reopen {env env1 env' : Env} {mapPages : Nat} {L : List (List KvOp × Status)} (hs : selectLive (env.file 0) (env.file 1) = some env.live) (hmap : metaLast env.liveMeta < mapPages)
      (ho : envOpen env.file env.filePages mapPages = .ok (.ok env1)) (rest : Tries fuel m env1 L env') : Tries fuel m env L env'
  | readers {env env' : Env} {L : List (List KvOp × Status)} (rs : List Slot) (rest : Tries fuel m { env with readers := rs } L env') : Tries fuel m env L env'

/-- **C129.**  Whatever is done with a halted database, no transaction ever changes it. -/
theorem tries_refused {fuel : Nat} {m : KvMap} {env env' : Env} {L : List (List KvOp × Status)} (T : Tries fuel m env L env') : ∀ {h hf : Nat} {fl : List (Bytes × Bytes)}, Halted env h hf m fl →
    Halted env' h hf m fl ∧ env'.file = env.file ∧ ∀ x ∈ L, x.2 = .exist ∨ (x.2 = .success ∧ x.1.foldl KvOp.apply m = m) := by
  induction T with
  | nil env => intro h hf fl H; exact ⟨H, rfl, fun x hx => by cases hx⟩
  | @commit env env1 env2 env' t t' ops st fail L hb hops hc _ ih =>
    intro h hf fl H
    obtain ⟨r1, r2⟩ := halted_refuses H hb (hops h hf fl H) (alloc env1 (fuel + 2)) fail
    have e := Prod.mk.inj (Res.ok.inj (r1.symm.trans hc))
    rw [← e.2] at ih
    obtain ⟨i1, i2, i3⟩ := ih H
    refine ⟨i1, i2, fun x hx => ?_⟩
    rcases List.mem_cons.1 hx with rfl | hx
    · by_cases hd : t'.dirty = []
      · right; exact ⟨by rw [← e.1, if_pos hd], r2 hd⟩
      · left; rw [← e.1, if_neg hd]
    · exact i3 x hx
  | abort hb _ ih =>
    intro h hf fl H
    rw [abort_restores hb] at ih
    exact ih H
  | @reopen env env1 env' mapPages L hs hmap ho _ ih =>
    intro h hf fl H
    have e := Wear.again_eq hs (by have := H.first; have := H.file; omega) (by have := H.first; omega) ho
    rw [e] at ih
    exact ih (H.congr rfl rfl hmap rfl)
  | @readers env env' L rs _ ih =>
    intro h hf fl H
    exact ih (H.congr (env' := { env with readers := rs }) rfl rfl H.map rfl)

/-- **C129 is false, in databases of any size.**  A database (`DbOk`) with a tree and a Free DB; a transaction changes pages without allocating one, and its commit fails in one of the three file
operations that follow the writing of its pages, or the machine stops after the first of them, which syncs the pages.  Then lookups give what the transaction stored, and whatever is done from then on, transactions that change a
page are refused with `APR_EEXIST`. -/
theorem failed_commit_blocks {env env1 : Env} {h0 hf fuel : Nat} {m : KvMap} {fl : List (Bytes × Bytes)} {t t' : Txn} {ops : List KvOp} (hdb : DbOk env h0 hf m fl)
    (hid : metaTxnid env.liveMeta + 1 < 2 ^ 64) (hb : beginWrite env = some (env1, t))
    (hops : Body env1 fuel (metaTxnid env.liveMeta + 1) (metaFree env.liveMeta) (offLimits env hf) t m ops t')
    (hroom : FreeRoom env (metaTxnid env.liveMeta + 1) (metaFree env.liveMeta) hf t') (hr0 : metaRoot env.liveMeta ≠ 0) (hfr : metaFree env.liveMeta ≠ 0) (hd : t'.dirty ≠ [])
    (hroot : t'.root = t.root) (hlast : t'.newLast = t.newLast) :
    ∃ acts n h, commitActs (alloc env1 (fuel + 2)) env1 t' = .ok (.ok acts) ∧ acts.length = n + 3 ∧ acts[n]? = some .sync ∧
      (∀ i, n ≤ i → i < n + 3 → ∃ env2, commitWith (alloc env1 (fuel + 2)) (some i) env1 t' = .ok (.general, env2) ∧
        (i < n + 2 → selectLive (env2.file 0) (env2.file 1) = some env2.live) ∧
        ∀ fuel' L env3, Tries fuel' (ops.foldl KvOp.apply m) env2 L env3 →
          (∀ x ∈ L, x.2 = .exist ∨ (x.2 = .success ∧ x.1.foldl KvOp.apply (ops.foldl KvOp.apply m) = ops.foldl KvOp.apply m)) ∧ env3.file = env2.file ∧
          ∀ k fuel', k.length < 65536 → h < fuel' → get env3 (readTxn env3) fuel' k = .ok ((ops.foldl KvOp.apply m).answer k)) ∧
      ∀ file, Crash env1 (acts.take (n + 1)) file → ∀ mapPages, metaLast env.liveMeta < mapPages → ∃ env2, envOpen file (runActs env1 (acts.take (n + 1))).filePages mapPages = .ok (.ok env2) ∧
        ∀ fuel' L env3, Tries fuel' (ops.foldl KvOp.apply m) env2 L env3 →
          (∀ x ∈ L, x.2 = .exist ∨ (x.2 = .success ∧ x.1.foldl KvOp.apply (ops.foldl KvOp.apply m) = ops.foldl KvOp.apply m)) ∧ env3.file = file ∧
          ∀ k fuel', k.length < 65536 → h < fuel' → get env3 (readTxn env3) fuel' k = .ok ((ops.foldl KvOp.apply m).answer k) := by
  obtain ⟨hl, e1, e2⟩ := begin_eq hb
  obtain ⟨env1', t1, b1, -, -, b3⟩ := begin_writing hdb hl hid
  rw [hb] at b1
  obtain ⟨rfl, rfl⟩ := Prod.mk.inj (Option.some.inj b1)
  obtain ⟨h, W⟩ := body_writing hops b3
  have hdb1 : DbOk env1 h0 hf m fl := by rw [e1]; exact hdb.congr rfl rfl rfl rfl
  have hlm : env1.liveMeta = env.liveMeta := by rw [e1]; rfl
  have hoff : offLimits env1 hf = offLimits env hf := by rw [e1]; rfl
  have hroom1 : FreeRoom env1 (metaTxnid env.liveMeta + 1) (metaFree env.liveMeta) hf t' := by rw [e1]; exact ⟨hroom.fresh, hroom.leaf⟩
  have hfd := (body_frees hops b3 (by rw [e2]; exact hr0) (by rw [e2]; exact fun h => absurd rfl h)).1 hd
  have hroot' : t'.root = metaRoot env1.liveMeta := by rw [hroot, hlm, e2]
  have hlast' : t'.newLast = metaLast env1.liveMeta := by rw [hlast, hlm, e2]
  rw [← hlm] at hid hr0 hfr hroom1 W ⊢
  rw [← hoff] at W
  obtain ⟨acts, n, fl', a1, a2, a3, a4⟩ := late_failure (alloc env1 (fuel + 2)) hdb1 hid W hroom1 (by rw [hlast']; exact hdb1.map) hfr hfd hd
  have hsel : selectLive (env1.file 0) (env1.file 1) = some env1.live := by
    have : ∃ env', envOpen env1.file env1.filePages env1.mapPages = .ok (.ok env') ∧ env'.live = env1.live := by
      obtain ⟨env', y1, -, y2, -⟩ := reopen_keeps hdb1 hdb1.map hdb1.cap
      exact ⟨env', y1, y2⟩
    obtain ⟨env', y1, y2⟩ := this
    unfold envOpen at y1
    have := hdb1.first; have := hdb1.file; have := hdb1.map
    rw [if_neg (by omega)] at y1
    cases hs : selectLive (env1.file 0) (env1.file 1) with
    | none => rw [hs] at y1; cases y1
    | some l =>
      rw [hs] at y1
      rw [← y2, ← Except.ok.inj (Res.ok.inj y1)]
  have later : ∀ {env2 : Env}, Halted env2 h hf (ops.foldl KvOp.apply m) fl' → ∀ fuel' L env3, Tries fuel' (ops.foldl KvOp.apply m) env2 L env3 →
      (∀ x ∈ L, x.2 = .exist ∨ (x.2 = .success ∧ x.1.foldl KvOp.apply (ops.foldl KvOp.apply m) = ops.foldl KvOp.apply m)) ∧ env3.file = env2.file ∧
      ∀ k fuel', k.length < 65536 → h < fuel' → get env3 (readTxn env3) fuel' k = .ok ((ops.foldl KvOp.apply m).answer k) := by
    intro env2 H fuel' L env3 T
    obtain ⟨i1, i2, i3⟩ := tries_refused T H
    exact ⟨i3, i2, fun k f hk hf => halted_get i1 hk hf⟩
  refine ⟨acts, n, h, a1, a2, a3, fun i h1 h2 => ?_, fun file hcr mp hmp => ?_⟩
  · obtain ⟨env2, c1, c2, c3, c4, c5, c6, c7, c8, c9, c10⟩ := a4 i h1 h2
    refine ⟨env2, c1, fun hi => ?_, later (halted_of hdb1 W hr0 hroot' hlast' c3 c5 c6 c7 c8 c9)⟩
    obtain ⟨f0, f1⟩ := c10 hi
    rw [f0, f1, c4]; exact hsel
  · obtain ⟨env2, c1, c2, c3, c4, c5, c6, c7, c8, c9, c10⟩ := a4 (n + 1) (by omega) (by omega)
    have H := halted_of hdb1 W hr0 hroot' hlast' c3 c5 c6 c7 c8 c9
    obtain ⟨f0, f1⟩ := c10 (by omega)
    have htake : acts.take (n + 1) = acts.take n ++ [.sync] := by
      rw [List.take_add_one, a3]; rfl
    have hfile := Wear.crash_file hcr (by rw [htake]; exact synced_sync _) (by rw [htake]; exact unsynced_sync _)
    have g1 : env2.file = file := by rw [hfile, c2]
    have g2 : env2.filePages = (runActs env1 (acts.take (n + 1))).filePages := by rw [c2]
    have H' : Halted (Wear.again env2 mp) h hf (ops.foldl KvOp.apply m) fl' := H.congr rfl rfl (by show _ < mp; rw [c6]; exact hmp) rfl
    refine ⟨Wear.again env2 mp, ?_, fun fuel' L env3 T => ?_⟩
    · rw [← g1, ← g2]
      exact Wear.open_any (by rw [f0, f1, c4]; exact hsel) (by have := H.first; have := H.file; omega) (by have := hdb1.first; omega)
    · rw [← g1]; exact later H' fuel' L env3 T

/-! ### A database and a transaction that meet the conditions -/

/-- The database in which `a` and then `b` were stored. -/
@[irreducible] def twoDb : Env := afterPut (afterPut newDb [97] [1]) [98] [2]

theorem twoDb_run : Run 5 newDb (fun _ => none) twoDb (KvMap.put (KvMap.put (fun _ => none) [97] [1]) [98] [2]) := by
  have g1 : goodPut newDb [97] [1] = true := by decide +kernel
  have g2 : goodPut (afterPut newDb [97] [1]) [98] [2] = true := by decide +kernel
  unfold twoDb
  exact run_goodPut g1 (by decide) rfl (run_goodPut g2 (by decide) rfl (.nil _ _))

/-- In that database a transaction stores `c`; its commit has six file operations, and the database is halted if one of the last three fails. -/
theorem twoDb_blocks : ∃ h0 hf fl env1 t t', DbOk twoDb h0 hf (KvMap.put (KvMap.put (fun _ => none) [97] [1]) [98] [2]) fl ∧ beginWrite twoDb = some (env1, t) ∧
    Body env1 5 4 3 (offLimits twoDb hf) t (KvMap.put (KvMap.put (fun _ => none) [97] [1]) [98] [2]) [.put [99] [3]] t' ∧
    metaTxnid twoDb.liveMeta = 3 ∧ metaFree twoDb.liveMeta = 3 ∧ metaRoot twoDb.liveMeta = 2 ∧ FreeRoom twoDb 4 3 hf t' ∧ t'.dirty ≠ [] ∧ t'.root = t.root ∧ t'.newLast = t.newLast := by
  obtain ⟨env0, e1, -, e2⟩ := create_empty (mapPages := 20) (by decide) (by decide)
  have e0 : envCreate 20 = .ok newDb := rfl
  rw [e0] at e1; cases e1
  obtain ⟨h, hf, fl, hdb⟩ := run_refines_partial twoDb_run e2
  have c1 : metaTxnid twoDb.liveMeta = 3 ∧ metaRoot twoDb.liveMeta = 2 ∧ metaFree twoDb.liveMeta = 3 ∧ metaLast twoDb.liveMeta = 3 ∧ twoDb.locked = false := by decide +kernel
  obtain ⟨c1, c2, c3, c4, c6⟩ := c1
  have c7 : (mapPage twoDb 3 >>= fun p => .ok (isLeaf p, decide (100 ≤ room p))) = .ok (true, true) := by decide +kernel
  have c8 : (mapPage twoDb 2 >>= fun p => .ok (isLeaf p, decide (100 ≤ room p))) = .ok (true, true) := by decide +kernel
  have c9 : (match beginWrite twoDb with
    | none => false
    | some (env1, t) => Res.holds (put env1 7 t [99] [3]) fun r => r.1 == .success && !r.2.dirty.isEmpty && r.2.root == t.root && r.2.newLast == t.newLast && r.2.freed == [2]) = true := by decide +kernel
  obtain ⟨p, p1, p2⟩ := Res.bind_eq_ok.1 c7
  obtain ⟨q, q1, q2⟩ := Res.bind_eq_ok.1 c8
  have p2 := Res.ok.inj p2
  have q2 := Res.ok.inj q2
  simp only [Prod.mk.injEq, decide_eq_true_eq] at p2 q2
  have hff : hf = 0 := by
    have hfree := hdb.free
    rw [c3] at hfree
    rcases hfree with ⟨h0, -⟩ | ⟨-, w1, -, -, w4⟩
    · cases h0
    · cases hf with
      | zero => rfl
      | succ hf =>
        obtain ⟨p', a, -, -, b, -⟩ := w1
        rw [p1] at a; cases a; rw [p2.1] at b; cases b
  subst hff
  cases hb : beginWrite twoDb with
  | none => rw [hb] at c9; cases c9
  | some r =>
    obtain ⟨env1, t⟩ := r
    rw [hb] at c9
    obtain ⟨⟨st, t1⟩, g1, g2⟩ := Res.holds_iff c9
    simp only [Bool.and_eq_true, beq_iff_eq, Bool.not_eq_true'] at g2
    obtain ⟨⟨⟨⟨rfl, g2⟩, g3⟩, g4⟩, g5⟩ := g2
    obtain ⟨-, b1, b2⟩ := begin_eq hb
    have hg : getPage env1 t t.root = .ok q := by
      have hr : t.root = 2 := by rw [b2]; exact c2
      rw [hr]
      unfold getPage
      rw [show t.rdonly = false by rw [b2], show t.getDirty 2 = none by rw [b2]; rfl, b1]
      exact q1
    have hroot : t.root ≠ 0 := by rw [b2]; show metaRoot _ ≠ 0; rw [c2]; decide
    have hnl : t.newLast = 3 := by rw [b2]; exact c4
    refine ⟨h, 0, fl, env1, t, t1, hdb, rfl, ?_, c1, c3, c2, ?_, ?_, g3, g4⟩
    · refine .put (fun h hh => ?_) (.inr fun h hh => ?_) g1 (.nil _ _)
      · have h0 : h = 0 := height_zero hh hg q2.1
        subst h0
        refine ⟨by decide, by decide, by rw [hnl]; decide, fun _ hr => ?_, fun h => absurd rfl h⟩
        intro q' hq hr
        rw [hg] at hq; cases hq
        have := q2.2
        simp at hr; omega
      · have h0 : h = 0 := height_zero hh hg q2.1
        subst h0
        refine ⟨hroot, fun _ => ?_, fun h => absurd rfl h⟩
        intro q' hq
        rw [hg] at hq; cases hq
        have := q2.2
        simp; omega
    · refine ⟨fun _ h => absurd h (by decide), fun _ _ => ?_⟩
      intro p' hp
      rw [p1] at hp; cases hp
      have := p2.2
      simp only [g5, List.length_cons, List.length_nil]; omega
    · intro h; rw [h] at g2; cases g2

/-- The story of that database, after the failure. -/
example : ∃ env1 t t' acts n env2, beginWrite twoDb = some (env1, t) ∧ put env1 7 t [99] [3] = .ok (.success, t') ∧ commitActs (alloc env1 7) env1 t' = .ok (.ok acts) ∧ acts.length = n + 3 ∧
    commitWith (alloc env1 7) (some n) env1 t' = .ok (.general, env2) ∧ ∀ fuel L env3, Tries fuel (KvMap.put (KvMap.put (KvMap.put (fun _ => none) [97] [1]) [98] [2]) [99] [3]) env2 L env3 →
      ∀ x ∈ L, x.2 = .success → x.1.foldl KvOp.apply (KvMap.put (KvMap.put (KvMap.put (fun _ => none) [97] [1]) [98] [2]) [99] [3]) = KvMap.put (KvMap.put (KvMap.put (fun _ => none) [97] [1]) [98] [2]) [99] [3] := by
  obtain ⟨h0, hf, fl, env1, t, t', a1, a2, a3, a4, a5, a6, a7, a8, a9, a10⟩ := twoDb_blocks
  have a3' := a3
  rw [show (4 : Nat) = metaTxnid twoDb.liveMeta + 1 by rw [a4]] at a3' a7
  rw [show (3 : Nat) = metaFree twoDb.liveMeta from a5.symm] at a3' a7
  obtain ⟨acts, n, h, c1, c2, c3, c4, -⟩ := failed_commit_blocks a1 (by rw [a4]; decide) a2 (by rw [a4, a5]; exact a3) (by rw [a4, a5] at *; exact a7) (by rw [a6]; decide) (by rw [a5]; decide) a8 a9 a10
  obtain ⟨env2, d1, d2, d3⟩ := c4 n (Nat.le_refl _) (by omega)
  cases a3 with
  | put hs hq hrun rest =>
    cases rest
    refine ⟨env1, t, t', acts, n, env2, a2, hrun, c1, c2, d1, fun fuel L env3 T x hx hs => ?_⟩
    rcases (d3 fuel L env3 T).1 x hx with h | h
    · rw [hs] at h; cases h
    · exact h.2

end Verif.Db
